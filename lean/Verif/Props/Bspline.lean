import Verif.Lemmas.Bspline
import Verif.Props.Interp

/-!
Properties of the B-spline on SE(3) (`navlie/bspline.py`): C58, C75.
-/

namespace Verif

open Matrix NormedSpace Filter Topology

set_option linter.unusedVariables false
set_option linter.unusedSectionVars false
set_option linter.unusedSimpArgs false

/-- Specification: evenly spaced control points. -/
noncomputable def uniformCps {V : Type} (p : ℕ → V) (t0 dt : ℝ) (m : ℕ) : List (V × ℝ) :=
  (List.range m).map fun i : ℕ => (p i, t0 + i * dt)

/-! ### Basis -/

/-- **C58, basis functions.** On a segment the cumulative basis functions lie in [0, 1] and are ordered. -/
theorem C58_basis (u : ℝ) (h0 : 0 ≤ u) (h1 : u ≤ 1) :
    0 ≤ (basis u).2.2 ∧ (basis u).2.2 ≤ (basis u).2.1 ∧ (basis u).2.1 ≤ (basis u).1 ∧ (basis u).1 ≤ 1 := by
  have hu3 : 0 ≤ u * u * u := by positivity
  have a : 0 ≤ (1 - u) ^ 3 := by have : 0 ≤ 1 - u := by linarith
                                 positivity
  simp only [basis]
  refine ⟨by positivity, ?_, ?_, ?_⟩
  · nlinarith [mul_nonneg h0 (sub_nonneg.2 h1), mul_nonneg (mul_nonneg h0 h0) (sub_nonneg.2 h1)]
  · nlinarith [mul_nonneg h0 (sub_nonneg.2 h1), mul_nonneg (mul_nonneg h0 h0) (sub_nonneg.2 h1), sq_nonneg u, sq_nonneg (1 - u)]
  · nlinarith

/-- **C58, basis derivatives.** The coded first and second derivatives are the derivatives with respect to time of the
functions and of the first derivatives. -/
theorem C58_basis_derivatives (t1 DT t : ℝ) (h : DT ≠ 0) :
    (HasDerivAt (fun t => (basis ((t - t1) / DT)).1) (basisDot ((t - t1) / DT) DT).1 t ∧
     HasDerivAt (fun t => (basis ((t - t1) / DT)).2.1) (basisDot ((t - t1) / DT) DT).2.1 t ∧
     HasDerivAt (fun t => (basis ((t - t1) / DT)).2.2) (basisDot ((t - t1) / DT) DT).2.2 t) ∧
    (HasDerivAt (fun t => (basisDot ((t - t1) / DT) DT).1) (basisDdot ((t - t1) / DT) DT).1 t ∧
     HasDerivAt (fun t => (basisDot ((t - t1) / DT) DT).2.1) (basisDdot ((t - t1) / DT) DT).2.1 t ∧
     HasDerivAt (fun t => (basisDot ((t - t1) / DT) DT).2.2) (basisDdot ((t - t1) / DT) DT).2.2 t) :=
  ⟨basis_deriv t1 DT t h, basisDot_deriv t1 DT t h⟩

/-! ### Which control points -/

theorem bounding_some {stamps : List ℝ} (hs : stamps.Pairwise (· ≤ ·)) {i : ℕ} (hi : i + 1 < stamps.length) {t : ℝ}
    (h1 : stamps[i] ≤ t) (h2 : t < stamps[i + 1]) : boundingPoses t stamps = .ok (some i) := by
  rw [List.pairwise_iff_getElem] at hs
  have hmono : ∀ a b (ha : a < stamps.length) (hb : b < stamps.length), a ≤ b → stamps[a] ≤ stamps[b] := by
    intro a b ha hb hab
    rcases hab.lt_or_eq with h | h
    · exact hs a b ha hb h
    · subst h; exact le_rfl
  unfold boundingPoses
  rw [pyGet_ok (show 0 < stamps.length by omega), ok_bindE, pyGet_ok (show stamps.length - 1 < stamps.length by omega), ok_bindE]
  have hrange : ¬ (t < stamps[0] ∨ stamps[stamps.length - 1] < t) := by
    rintro (h | h)
    · exact absurd (lt_of_le_of_lt ((hmono 0 i (by omega) (by omega) (by omega)).trans h1) h) (lt_irrefl _)
    · have := hmono (i + 1) (stamps.length - 1) hi (by omega) (by omega)
      linarith
  rw [if_neg hrange]
  refine congrArg Except.ok ?_
  rw [List.find?_range_eq_some]
  refine ⟨?_, ?_, ?_⟩
  · simp only [decide_eq_true_eq]
    rw [List.getD_eq_getElem?_getD, List.getElem?_eq_getElem hi]
    exact h2
  · rw [List.mem_range]; omega
  · intro j hj
    simp only [Bool.not_eq_true', decide_eq_false_iff_not, not_lt]
    rw [List.getD_eq_getElem?_getD, List.getElem?_eq_getElem (show j + 1 < stamps.length by omega)]
    exact (hmono (j + 1) i (by omega) (by omega) (by omega)).trans h1

theorem bounding_none {stamps : List ℝ} (hs : stamps.Pairwise (· ≤ ·)) (hne : 0 < stamps.length) {t : ℝ}
    (h : t < stamps[0] ∨ stamps[stamps.length - 1] ≤ t) : boundingPoses t stamps = .ok none := by
  rw [List.pairwise_iff_getElem] at hs
  unfold boundingPoses
  rw [pyGet_ok hne, ok_bindE, pyGet_ok (show stamps.length - 1 < stamps.length by omega), ok_bindE]
  split_ifs with hr
  · rfl
  · refine congrArg Except.ok ?_
    rw [List.find?_eq_none]
    intro j hj
    rw [List.mem_range] at hj
    simp only [decide_eq_true_eq, not_lt]
    rw [List.getD_eq_getElem?_getD, List.getElem?_eq_getElem (show j + 1 < stamps.length by omega)]
    show stamps[j + 1] ≤ t
    rcases h with h | h
    · exact absurd (Or.inl h) hr
    · rcases (show j + 1 ≤ stamps.length - 1 by omega).lt_or_eq with h3 | h3
      · exact (hs (j + 1) (stamps.length - 1) (by omega) (by omega) h3).trans h
      · simp only [h3]; exact h

section Uniform

variable {V : Type} (p : ℕ → V) {t0 dt : ℝ} (hdt : 0 < dt) {m : ℕ}

theorem uniform_length : (uniformCps p t0 dt m).length = m := by simp [uniformCps]

theorem uniform_get {i : ℕ} (hi : i < m) : (uniformCps p t0 dt m)[i]? = some (p i, t0 + i * dt) := by
  unfold uniformCps
  rw [List.getElem?_map, List.getElem?_range hi]
  rfl

theorem uniform_pyGet {i : ℕ} (hi : i < m) : pyGet (uniformCps p t0 dt m) i = .ok (p i, t0 + i * dt) := by
  unfold pyGet
  rw [uniform_get p hi]

theorem uniform_stamps : (uniformCps p t0 dt m).map Prod.snd = (List.range m).map fun i : ℕ => t0 + i * dt := by
  unfold uniformCps
  rw [List.map_map]
  rfl

include hdt in
theorem uniform_sorted : ((uniformCps p t0 dt m).map Prod.snd).Pairwise (· ≤ ·) := by
  rw [uniform_stamps, List.pairwise_map]
  refine List.Pairwise.imp ?_ List.pairwise_lt_range
  intro a b hab
  have : (a : ℝ) * dt ≤ b * dt := mul_le_mul_of_nonneg_right (by exact_mod_cast hab.le) hdt.le
  linarith

/-- The four control points around cell `k`. -/
noncomputable def fourU (p : ℕ → V) (t0 dt : ℝ) (k : ℕ) : Four4 V :=
  ⟨(p (k - 1), t0 + (k - 1 : ℕ) * dt), (p k, t0 + k * dt), (p (k + 1), t0 + (k + 1 : ℕ) * dt), (p (k + 2), t0 + (k + 2 : ℕ) * dt)⟩

include hdt in
theorem boundingCPs_some {k : ℕ} (h1 : 1 ≤ k) (h2 : k + 2 < m) {t : ℝ} (ht1 : t0 + k * dt ≤ t) (ht2 : t < t0 + (k + 1) * dt) :
    boundingCPs t (uniformCps p t0 dt m) = .ok (some (fourU p t0 dt k)) := by
  have hb : boundingPoses t ((uniformCps p t0 dt m).map Prod.snd) = .ok (some k) := by
    refine bounding_some (uniform_sorted p hdt) (by simp [uniformCps]; omega) ?_ ?_
    · simp only [uniform_stamps, List.getElem_map, List.getElem_range]; exact ht1
    · simp only [uniform_stamps, List.getElem_map, List.getElem_range]; push_cast; exact ht2
  unfold boundingCPs
  rw [hb, ok_bindE]
  simp only [uniform_length]
  rw [if_neg (by omega), if_neg (by omega)]
  unfold fourAt
  rw [uniform_pyGet p (by omega), ok_bindE, uniform_pyGet p (by omega), ok_bindE, uniform_pyGet p (by omega), ok_bindE,
    uniform_pyGet p (by omega), ok_bindE]
  rfl

include hdt in
/-- Outside the window there is no answer. -/
theorem boundingCPs_none (hm : 0 < m) {t : ℝ} (h : t < t0 + dt ∨ t0 + ((m : ℝ) - 2) * dt ≤ t) :
    boundingCPs t (uniformCps p t0 dt m) = .ok none := by
  have hlast : ((m - 1 : ℕ) : ℝ) = m - 1 := by rw [Nat.cast_sub (by omega)]; simp
  unfold boundingCPs
  by_cases hout : t < t0 ∨ t0 + ((m : ℝ) - 1) * dt ≤ t
  · rw [bounding_none (uniform_sorted p hdt) (by simp [uniformCps]; omega) (by
      simp only [uniform_stamps, List.getElem_map, List.getElem_range, List.length_map, List.length_range]
      rw [hlast]
      rcases hout with h | h
      · left; simpa using h
      · right; exact h), ok_bindE]
    rfl
  · push Not at hout
    obtain ⟨c1, c2⟩ := cell_spec hdt hout.1
    set k := cell t0 dt t with hk
    have hkm : k + 1 < m := by
      by_contra hc
      have : (m : ℝ) ≤ k + 1 := by exact_mod_cast (not_lt.1 hc)
      have h3 : ((m : ℝ) - 1) * dt ≤ k * dt := mul_le_mul_of_nonneg_right (by linarith) hdt.le
      linarith
    rw [bounding_some (uniform_sorted p hdt) (i := k) (by simp [uniformCps]; omega)
      (by simp only [uniform_stamps, List.getElem_map, List.getElem_range]; exact c1)
      (by simp only [uniform_stamps, List.getElem_map, List.getElem_range]; push_cast; exact c2), ok_bindE]
    simp only [uniform_length]
    by_cases hk0 : k = 0
    · rw [if_pos hk0]; rfl
    · rw [if_neg hk0]
      rcases h with h | h
      · exfalso
        have : (1 : ℝ) ≤ k := by exact_mod_cast Nat.one_le_iff_ne_zero.2 hk0
        have h3 : 1 * dt ≤ k * dt := mul_le_mul_of_nonneg_right this hdt.le
        linarith
      · rw [if_pos]
        · rfl
        · have h4 : (m : ℝ) - 2 < k + 1 := by
            by_contra hc
            have h3 : ((k : ℝ) + 1) * dt ≤ ((m : ℝ) - 2) * dt := mul_le_mul_of_nonneg_right (not_lt.1 hc) hdt.le
            linarith
          have h5 : (m : ℝ) < ((k + 3 : ℕ) : ℝ) := by push_cast; linarith
          have : m < k + 3 := by exact_mod_cast h5
          omega

include hdt in
theorem cell_window {t : ℝ} (h1 : t0 + dt ≤ t) (h2 : t < t0 + ((m : ℝ) - 2) * dt) :
    1 ≤ cell t0 dt t ∧ cell t0 dt t + 2 < m := by
  obtain ⟨c1, c2⟩ := cell_spec hdt (show t0 ≤ t by linarith)
  constructor
  · by_contra hc
    have : cell t0 dt t = 0 := by omega
    rw [this] at c2
    simp at c2
    linarith
  · by_contra hc
    have : (m : ℝ) ≤ ((cell t0 dt t + 2 : ℕ) : ℝ) := by exact_mod_cast (not_lt.1 hc)
    push_cast at this
    have h3 : ((m : ℝ) - 2) * dt ≤ cell t0 dt t * dt := mul_le_mul_of_nonneg_right (by linarith) hdt.le
    linarith

end Uniform

/-- **C58, window.** With `m ≥ 1` evenly spaced control points from time `t0` on, `get_pose`, `get_velocity` and
`get_acceleration` return a value exactly for the times from `t0 + dt` (included) to `t0 + (m - 2) dt` (excluded), and
`None` otherwise. In particular they always return `None` with fewer than four control points. -/
theorem C58_window (Log : Pose → Vec 6) (p : ℕ → Pose) {t0 dt : ℝ} (hdt : 0 < dt) {m : ℕ} (hm : 0 < m) (t : ℝ) :
    (t0 + dt ≤ t ∧ t < t0 + ((m : ℝ) - 2) * dt →
      (∃ X, getPose Log (uniformCps p t0 dt m) t = .ok (some (X, t))) ∧
      (∃ v, getVelocity Log (uniformCps p t0 dt m) t = .ok (some v)) ∧
      (∃ a, getAcceleration Log (uniformCps p t0 dt m) t = .ok (some a))) ∧
    (¬(t0 + dt ≤ t ∧ t < t0 + ((m : ℝ) - 2) * dt) →
      getPose Log (uniformCps p t0 dt m) t = .ok none ∧
      getVelocity Log (uniformCps p t0 dt m) t = .ok none ∧
      getAcceleration Log (uniformCps p t0 dt m) t = .ok none) := by
  constructor
  · rintro ⟨h1, h2⟩
    obtain ⟨k1, k2⟩ := cell_window hdt h1 h2
    obtain ⟨c1, c2⟩ := cell_spec hdt (show t0 ≤ t by linarith)
    have hb := boundingCPs_some p hdt k1 k2 c1 c2
    unfold getPose getVelocity getAcceleration
    rw [hb]
    exact ⟨⟨_, rfl⟩, ⟨_, rfl⟩, ⟨_, rfl⟩⟩
  · intro h
    have hb := boundingCPs_none p hdt hm (t := t) (by
      by_cases h1 : t < t0 + dt
      · exact Or.inl h1
      · right
        by_contra h2
        exact h ⟨not_lt.1 h1, not_le.1 h2⟩)
    unfold getPose getVelocity getAcceleration
    rw [hb]
    exact ⟨rfl, rfl, rfl⟩

/-! ### The trajectory -/

/-- The quantities of the segment that contains `t`. -/
noncomputable def splineAt (Log : Pose → Vec 6) (p : ℕ → Pose) (t0 dt t : ℝ) : SegVals :=
  segVals Log (fourU p t0 dt (cell t0 dt t)) t

theorem seg_uniform (Log : Pose → Vec 6) (p : ℕ → Pose) (t0 dt t : ℝ) (k : ℕ) :
    segVals Log (fourU p t0 dt k) t = segU (p (k - 1)) (relLog Log (p (k - 1)) (p k)) (relLog Log (p k) (p (k + 1)))
      (relLog Log (p (k + 1)) (p (k + 2))) ((t - (t0 + k * dt)) / dt) dt := by
  rw [segVals_eq]
  unfold fourU
  simp only
  rw [show t0 + ((k + 1 : ℕ) : ℝ) * dt - (t0 + k * dt) = dt by push_cast; ring]

section Main

variable (Log : Pose → Vec 6) (p : ℕ → Pose) {t0 dt : ℝ} (hdt : 0 < dt) {m : ℕ} (hp : ∀ i < m, IsPose (p i))
  (hlog : ∀ i, i + 1 < m → se3Exp (Log (se3Inv (p i) * p (i + 1))) = se3Inv (p i) * p (i + 1))

include hdt hp hlog in
theorem seg_match {k : ℕ} (h1 : 1 ≤ k) (h2 : k < m) :
    segVals Log (fourU p t0 dt k) (t0 + (k + 1) * dt) = segVals Log (fourU p t0 dt (k + 1)) (t0 + (k + 1) * dt) := by
  rw [seg_uniform, seg_uniform]
  rw [show (t0 + ((k : ℝ) + 1) * dt - (t0 + k * dt)) / dt = 1 by field_simp; ring,
    show (t0 + ((k : ℝ) + 1) * dt - (t0 + ((k + 1 : ℕ) : ℝ) * dt)) / dt = 0 by push_cast; simp]
  refine segU_match _ _ _ _ _ _ _ ?_
  obtain ⟨j, rfl⟩ : ∃ j, k = j + 1 := ⟨k - 1, by omega⟩
  simp only [Nat.add_sub_cancel]
  unfold relLog
  rw [hlog j h2, ← Matrix.mul_assoc, mul_se3Inv (hp j (by omega)), Matrix.one_mul]

open scoped Matrix.Norms.Operator

include hdt hp hlog in
theorem spline_calc (t : ℝ) (h1 : t0 + dt < t) (h2 : t < t0 + ((m : ℝ) - 2) * dt) :
    HasDerivAt (fun s => (splineAt Log p t0 dt s).pose) (splineAt Log p t0 dt t).vel t ∧
    HasDerivAt (fun s => (splineAt Log p t0 dt s).vel) (splineAt Log p t0 dt t).acc t ∧
    ContinuousAt (fun s => (splineAt Log p t0 dt s).acc) t := by
  obtain ⟨k1, k2⟩ := cell_window (m := m) hdt h1.le h2
  have hd : ∀ k t, HasDerivAt (fun t => (segVals Log (fourU p t0 dt k) t).pose) (segVals Log (fourU p t0 dt k) t).vel t ∧
      HasDerivAt (fun t => (segVals Log (fourU p t0 dt k) t).vel) (segVals Log (fourU p t0 dt k) t).acc t := by
    intro k t
    simp only [seg_uniform]
    exact segU_deriv _ _ _ _ _ _ _ hdt.ne'
  refine ⟨?_, ?_, ?_⟩
  · exact glue_all (G := fun k t => (segVals Log (fourU p t0 dt k) t).pose) (H := fun k t => (segVals Log (fourU p t0 dt k) t).vel)
      (N := m) hdt (fun k _ t => (hd k t).1) (fun k a b => congrArg SegVals.pose (seg_match Log p hdt hp hlog a b))
      (fun k a b => congrArg SegVals.vel (seg_match Log p hdt hp hlog a b)) t h1 (by omega)
  · exact glue_all (G := fun k t => (segVals Log (fourU p t0 dt k) t).vel) (H := fun k t => (segVals Log (fourU p t0 dt k) t).acc)
      (N := m) hdt (fun k _ t => (hd k t).2) (fun k a b => congrArg SegVals.vel (seg_match Log p hdt hp hlog a b))
      (fun k a b => congrArg SegVals.acc (seg_match Log p hdt hp hlog a b)) t h1 (by omega)
  · exact glue_all_cont (G := fun k t => (segVals Log (fourU p t0 dt k) t).acc) (N := m) hdt
      (fun k _ => by simp only [seg_uniform]; exact segU_acc_continuous _ _ _ _ _ _)
      (fun k a b => congrArg SegVals.acc (seg_match Log p hdt hp hlog a b)) t h1 (by omega)

include hdt hp in
theorem spline_pose (t : ℝ) (h1 : t0 + dt ≤ t) (h2 : t < t0 + ((m : ℝ) - 2) * dt) : IsPose (splineAt Log p t0 dt t).pose := by
  obtain ⟨k1, k2⟩ := cell_window (m := m) hdt h1 h2
  unfold splineAt
  rw [segVals_eq]
  exact (((hp _ (by omega)).mul (se3Exp_isPose _)).mul (se3Exp_isPose _)).mul (se3Exp_isPose _)

/-- The rotation block as a continuous linear map. -/
noncomputable def rotL : Pose →L[ℝ] Mat 3 3 := LinearMap.toContinuousLinearMap
  { toFun := fun X => X.rot, map_add' := fun _ _ => rfl, map_smul' := fun _ _ => rfl }

/-- An entry of a 3 × 3 matrix as a continuous linear map. -/
noncomputable def entL (i j : Fin 3) : Mat 3 3 →L[ℝ] ℝ := LinearMap.toContinuousLinearMap
  { toFun := fun X => X i j, map_add' := fun _ _ => rfl, map_smul' := fun _ _ => rfl }

/-- The transpose as a continuous linear map. -/
noncomputable def trL : Mat 3 3 →L[ℝ] Mat 3 3 := LinearMap.toContinuousLinearMap
  { toFun := fun X => Xᵀ, map_add' := fun _ _ => rfl, map_smul' := fun _ _ => rfl }

/-- A component of the position as a continuous linear map. -/
noncomputable def posL (i : Fin 3) : Pose →L[ℝ] ℝ := LinearMap.toContinuousLinearMap
  { toFun := fun X => X.pos i, map_add' := fun _ _ => rfl, map_smul' := fun _ _ => rfl }

include hdt hp hlog in
/-- **C58, kinematics.** For evenly spaced control points that are poses and whose relative poses are recovered by
`Exp(Log(.))`: on the whole window — across the knots too — `get_pose` returns poses; the translational velocity of
`get_velocity` is the derivative of the position, its angular velocity `ω` satisfies `dC/dt = C [ω]×`; the two parts of
`get_acceleration` are the derivatives of these velocities, and they are continuous. -/
theorem C58_kinematics :
    ∃ (X : ℝ → Pose) (ω v α a : ℝ → Vec 3),
      (∀ t, t0 + dt ≤ t → t < t0 + ((m : ℝ) - 2) * dt →
        getPose Log (uniformCps p t0 dt m) t = .ok (some (X t, t)) ∧
        getVelocity Log (uniformCps p t0 dt m) t = .ok (some (ω t, v t)) ∧
        getAcceleration Log (uniformCps p t0 dt m) t = .ok (some (α t, a t)) ∧ IsPose (X t)) ∧
      (∀ t, t0 + dt < t → t < t0 + ((m : ℝ) - 2) * dt → ∀ i j : Fin 3,
        HasDerivAt (fun s => (X s).pos i) (v t i) t ∧ HasDerivAt (fun s => v s i) (a t i) t ∧
        HasDerivAt (fun s => (X s).rot i j) (((X t).rot * skew (ω t)) i j) t ∧
        HasDerivAt (fun s => ω s i) (α t i) t ∧
        ContinuousAt (fun s => a s i) t ∧ ContinuousAt (fun s => α s i) t) := by
  refine ⟨fun t => (splineAt Log p t0 dt t).pose, fun t => angVel (splineAt Log p t0 dt t),
    fun t => (splineAt Log p t0 dt t).vel.pos, fun t => angAcc (splineAt Log p t0 dt t),
    fun t => (splineAt Log p t0 dt t).acc.pos, ?_, ?_⟩
  · intro t h1 h2
    obtain ⟨k1, k2⟩ := cell_window hdt h1 h2
    obtain ⟨c1, c2⟩ := cell_spec hdt (show t0 ≤ t by linarith)
    have hb := boundingCPs_some p hdt k1 k2 c1 c2
    unfold getPose getVelocity getAcceleration
    rw [hb]
    exact ⟨rfl, rfl, rfl, spline_pose Log p hdt hp t h1 h2⟩
  · intro t h1 h2 i j
    obtain ⟨d1, d2, d3⟩ := spline_calc Log p hdt hp hlog t h1 h2
    have hr1 : HasDerivAt (fun s => (splineAt Log p t0 dt s).pose.rot) (splineAt Log p t0 dt t).vel.rot t :=
      rotL.hasFDerivAt.comp_hasDerivAt t d1
    have hr2 : HasDerivAt (fun s => (splineAt Log p t0 dt s).vel.rot) (splineAt Log p t0 dt t).acc.rot t :=
      rotL.hasFDerivAt.comp_hasDerivAt t d2
    have hr1t : HasDerivAt (fun s => (splineAt Log p t0 dt s).pose.rotᵀ) (splineAt Log p t0 dt t).vel.rotᵀ t :=
      trL.hasFDerivAt.comp_hasDerivAt t hr1
    have hr3 : ContinuousAt (fun s => (splineAt Log p t0 dt s).acc.rot) t := rotL.continuous.continuousAt.comp d3
    have hort := (spline_pose Log p hdt hp t h1.le h2).ortho
    have hnear : (fun s => (splineAt Log p t0 dt s).pose.rotᵀ * (splineAt Log p t0 dt s).pose.rot) =ᶠ[𝓝 t] fun _ => 1 := by
      filter_upwards [Ioo_mem_nhds h1 h2] with s hs
      exact (spline_pose Log p hdt hp s hs.1.le hs.2).ortho
    have hsum : (splineAt Log p t0 dt t).vel.rotᵀ * (splineAt Log p t0 dt t).pose.rot +
        (splineAt Log p t0 dt t).pose.rotᵀ * (splineAt Log p t0 dt t).vel.rot = 0 :=
      (hr1t.mul hr1).unique ((hasDerivAt_const t (1 : Mat 3 3)).congr_of_eventuallyEq hnear)
    have hskew : ((splineAt Log p t0 dt t).pose.rotᵀ * (splineAt Log p t0 dt t).vel.rot)ᵀ =
        -((splineAt Log p t0 dt t).pose.rotᵀ * (splineAt Log p t0 dt t).vel.rot) := by
      rw [transpose_mul, transpose_transpose]
      exact eq_neg_of_add_eq_zero_left hsum
    have hC : (splineAt Log p t0 dt t).pose.rot * skew (angVel (splineAt Log p t0 dt t)) = (splineAt Log p t0 dt t).vel.rot := by
      unfold angVel
      rw [skew_vee hskew, ← Matrix.mul_assoc, hort.right, Matrix.one_mul]
    have hΩ : HasDerivAt (fun s => (splineAt Log p t0 dt s).pose.rotᵀ * (splineAt Log p t0 dt s).vel.rot)
        ((splineAt Log p t0 dt t).pose.rotᵀ * ((splineAt Log p t0 dt t).acc.rot - (splineAt Log p t0 dt t).vel.rot *
          ((splineAt Log p t0 dt t).pose.rotᵀ * (splineAt Log p t0 dt t).vel.rot))) t := by
      refine (hr1t.mul hr2).congr_deriv ?_
      have e : (splineAt Log p t0 dt t).vel.rotᵀ = -((splineAt Log p t0 dt t).pose.rotᵀ * (splineAt Log p t0 dt t).vel.rot *
          (splineAt Log p t0 dt t).pose.rotᵀ) := by
        have := congrArg (· * (splineAt Log p t0 dt t).pose.rotᵀ) (eq_neg_of_add_eq_zero_left hsum)
        simp only [Matrix.mul_assoc, hort.right, Matrix.mul_one, Matrix.neg_mul] at this
        rw [this, Matrix.mul_assoc]
      rw [e]
      noncomm_ring
    refine ⟨(posL i).hasFDerivAt.comp_hasDerivAt t d1, (posL i).hasFDerivAt.comp_hasDerivAt t d2, ?_, ?_,
      (posL i).continuous.continuousAt.comp d3, ?_⟩
    · rw [hC]
      exact (entL i j).hasFDerivAt.comp_hasDerivAt t hr1
    · fin_cases i
      · exact (entL 2 1).hasFDerivAt.comp_hasDerivAt t hΩ
      · exact (entL 0 2).hasFDerivAt.comp_hasDerivAt t hΩ
      · exact (entL 1 0).hasFDerivAt.comp_hasDerivAt t hΩ
    · have hcont : ContinuousAt (fun s => (splineAt Log p t0 dt s).pose.rotᵀ * ((splineAt Log p t0 dt s).acc.rot -
          (splineAt Log p t0 dt s).vel.rot * ((splineAt Log p t0 dt s).pose.rotᵀ * (splineAt Log p t0 dt s).vel.rot))) t :=
        hr1t.continuousAt.mul (hr3.sub (hr2.continuousAt.mul (hr1t.continuousAt.mul hr2.continuousAt)))
      fin_cases i
      · exact (entL 2 1).continuous.continuousAt.comp hcont
      · exact (entL 0 2).continuous.continuousAt.comp hcont
      · exact (entL 1 0).continuous.continuousAt.comp hcont

end Main

/-- **C58, constants.** If all control points are the same pose `X` (and `Log(1) = 0`) the spline stays at `X`, with zero
velocity and zero acceleration. -/
theorem C58_constant (Log : Pose → Vec 6) (hlog1 : Log 1 = 0) (X : Pose) (hX : IsPose X) {t0 dt : ℝ} (hdt : 0 < dt) {m : ℕ}
    (t : ℝ) (h1 : t0 + dt ≤ t) (h2 : t < t0 + ((m : ℝ) - 2) * dt) :
    getPose Log (uniformCps (fun _ => X) t0 dt m) t = .ok (some (X, t)) ∧
    getVelocity Log (uniformCps (fun _ => X) t0 dt m) t = .ok (some (0, 0)) ∧
    getAcceleration Log (uniformCps (fun _ => X) t0 dt m) t = .ok (some (0, 0)) := by
  obtain ⟨k1, k2⟩ := cell_window hdt h1 h2
  obtain ⟨c1, c2⟩ := cell_spec hdt (show t0 ≤ t by linarith)
  have hb := boundingCPs_some (fun _ => X) hdt k1 k2 c1 c2
  have hrel : relLog Log X X = 0 := by unfold relLog; rw [se3Inv_mul hX, hlog1]
  have hs : segVals Log (fourU (fun _ => X) t0 dt (cell t0 dt t)) t = ⟨X, 0, 0⟩ := by
    rw [seg_uniform, hrel]
    unfold segU
    simp [se3Exp_zero, se3Wedge_zero]
  unfold getPose getVelocity getAcceleration
  rw [hb]
  refine ⟨?_, ?_, ?_⟩
  · show Except.ok (some (_, t)) = _
    rw [hs]
  · show Except.ok (some (angVel _, _)) = _
    rw [hs]
    have : angVel ⟨X, 0, 0⟩ = 0 := by
      unfold angVel
      rw [show (0 : Pose).rot = 0 from rfl, Matrix.mul_zero]
      ext i; fin_cases i <;> rfl
    rw [this]
    rfl
  · show Except.ok (some (angAcc _, _)) = _
    rw [hs]
    have : angAcc ⟨X, 0, 0⟩ = 0 := by
      unfold angAcc
      rw [show (0 : Pose).rot = 0 from rfl, Matrix.mul_zero, Matrix.mul_zero, sub_zero, Matrix.mul_zero]
      ext i; fin_cases i <;> rfl
    rw [this]
    rfl

/-! ### The constructor -/

section Ctor

variable {V : Type} {n : ℕ}

/-- Specification: `x` at time `τ` is the linear interpolation between the two trajectory points around `τ`. -/
def IsLinearInterp (o : StateOps V n) (traj : List (V × ℝ)) (x : V) (τ : ℝ) : Prop :=
  ∃ (j : ℕ) (a b : V) (sa sb : ℝ), traj[j]? = some (a, sa) ∧ traj[j + 1]? = some (b, sb) ∧ sa ≤ τ ∧ τ < sb ∧
    x = o.plus a (((τ - sa) / (sb - sa)) • o.minus b a)

theorem ceil_step {y : ℝ} (h : 0 < y) : ⌈y⌉₊ = ⌈y - 1⌉₊ + 1 := by
  by_cases h1 : 0 ≤ y - 1
  · rw [← Nat.ceil_add_one h1, sub_add_cancel]
  · have e : ⌈y - 1⌉₊ = 0 := Nat.ceil_eq_zero.2 (not_le.1 h1).le
    rw [e, zero_add, Nat.ceil_eq_iff one_ne_zero]
    push Not at h1
    constructor
    · simpa using h
    · push_cast; linarith

theorem find_cell {traj : List (V × ℝ)} {first last : V × ℝ} (h0 : traj[0]? = some first)
    (hl : traj[traj.length - 1]? = some last) {cur : ℝ} (h1 : first.2 ≤ cur) (h2 : cur < last.2) :
    ∃ (i : ℕ) (a b : V × ℝ), traj[i]? = some a ∧ traj[i + 1]? = some b ∧ a.2 ≤ cur ∧ cur < b.2 := by
  classical
  have hex : ∃ i : ℕ, ∃ b : V × ℝ, traj[i]? = some b ∧ cur < b.2 := ⟨_, last, hl, h2⟩
  obtain ⟨b, hb, hcb⟩ := Nat.find_spec hex
  have hpos : Nat.find hex ≠ 0 := by
    intro hz
    rw [hz, h0] at hb
    cases hb
    linarith
  obtain ⟨i, hi⟩ := Nat.exists_eq_succ_of_ne_zero hpos
  rw [hi] at hb
  have hlen := (List.getElem?_eq_some_iff.1 hb).1
  have hi' : i < traj.length := by omega
  refine ⟨i, traj[i], b, List.getElem?_eq_getElem hi', hb, ?_, hcb⟩
  by_contra hc
  exact Nat.find_min hex (m := i) (by omega) ⟨traj[i], List.getElem?_eq_getElem hi', not_le.1 hc⟩

theorem controlLoop_ok (o : StateOps V n) {traj : List (V × ℝ)} (hs : (traj.map Prod.snd).Pairwise (· ≤ ·))
    {first last : V × ℝ} (h0 : traj[0]? = some first) (hl : traj[traj.length - 1]? = some last) {dt : ℝ} (hdt : 0 < dt) :
    ∀ (fuel : ℕ) (cur : ℝ), first.2 ≤ cur → ⌈(last.2 - cur) / dt⌉₊ < fuel →
      ∃ l, controlLoop o traj dt fuel cur = .ok l ∧ l.length = ⌈(last.2 - cur) / dt⌉₊ ∧
        ∀ (i : ℕ) (x : V × ℝ), l[i]? = some x → x.2 = cur + i * dt ∧ IsLinearInterp o traj x.1 x.2 := by
  intro fuel
  have hne : 0 < traj.length := (List.getElem?_eq_some_iff.1 h0).1
  induction fuel with
  | zero => intro cur _ h; omega
  | succ fuel ih =>
    intro cur hcur hfuel
    simp only [controlLoop]
    by_cases hlt : cur < last.2
    · obtain ⟨i, a, b, ha, hb, hac, hcb⟩ := find_cell h0 hl hcur hlt
      have hi1 := (List.getElem?_eq_some_iff.1 hb)
      have hi0 := (List.getElem?_eq_some_iff.1 ha)
      obtain ⟨hi1, hb'⟩ := hi1
      obtain ⟨hi0, ha'⟩ := hi0
      rw [bounding_some hs (i := i) (by simpa using hi1) (by simp only [List.getElem_map]; rw [ha']; exact hac)
        (by simp only [List.getElem_map]; rw [hb']; exact hcb), ok_bindE]
      simp only
      rw [pyGet_iff.2 ha, ok_bindE, pyGet_iff.2 hb, ok_bindE]
      have hord : InOrder [a, b] := by
        unfold InOrder
        simp
        linarith
      obtain ⟨av, as⟩ := a
      obtain ⟨bv, bs⟩ := b
      rw [C50_between o [(av, as), (bv, bs)] hord 0 av bv as bs cur rfl rfl hac hcb, ok_bindE]
      have hpos : 0 < (last.2 - cur) / dt := div_pos (by linarith) hdt
      have hstep : ⌈(last.2 - cur) / dt⌉₊ = ⌈(last.2 - (cur + dt)) / dt⌉₊ + 1 := by
        rw [ceil_step hpos]
        congr 2
        field_simp
        ring
      obtain ⟨l, hl1, hl2, hl3⟩ := ih (cur + dt) (by linarith) (by omega)
      rw [hl1, ok_bindE]
      refine ⟨_, rfl, ?_, ?_⟩
      · rw [List.length_cons, hl2, hstep]
      · intro j x hx
        cases j with
        | zero =>
          simp only [List.getElem?_cons_zero, Option.some.injEq] at hx
          rw [← hx]
          refine ⟨by simp, i, av, bv, as, bs, ha, hb, hac, hcb, rfl⟩
        | succ j =>
          simp only [List.getElem?_cons_succ] at hx
          obtain ⟨e1, e2⟩ := hl3 j x hx
          refine ⟨?_, e2⟩
          rw [e1]; push_cast; ring
    · obtain ⟨hl0, hl'⟩ := List.getElem?_eq_some_iff.1 hl
      rw [bounding_none hs (by simpa using hne) (Or.inr (by
        simp only [List.length_map, List.getElem_map]; rw [hl']; exact not_lt.1 hlt)), ok_bindE]
      refine ⟨[], rfl, ?_, by simp⟩
      rw [List.length_nil, Nat.ceil_eq_zero.2 (div_nonpos_of_nonpos_of_nonneg (by linarith [not_lt.1 hlt]) hdt.le)]

/-- **C75, control points.** For a trajectory in time order and a positive spacing, building the spline ends, and its control
points are the linear interpolations of the trajectory at the evenly spaced times `start + i dt` strictly before its last
stamp, for every number of trajectory points. -/
theorem C75_control_points (o : StateOps V n) (traj : List (V × ℝ)) (hs : (traj.map Prod.snd).Pairwise (· ≤ ·))
    (first last : V × ℝ) (h0 : traj[0]? = some first) (hl : traj[traj.length - 1]? = some last) (maxDt : ℝ)
    (hdt : 0 < splineDt (traj.map Prod.snd) maxDt) (fuel : ℕ)
    (hfuel : ⌈(last.2 - first.2) / splineDt (traj.map Prod.snd) maxDt⌉₊ < fuel) :
    ∃ (S : Spline V) (p : ℕ → V), mkSpline o traj maxDt fuel = .ok S ∧ S.dt = splineDt (traj.map Prod.snd) maxDt ∧
      S.startTime = first.2 + 2 * S.dt ∧ S.endTime = last.2 ∧
      S.cps = uniformCps p first.2 S.dt ⌈(last.2 - first.2) / S.dt⌉₊ ∧
      ∀ i < ⌈(last.2 - first.2) / S.dt⌉₊, IsLinearInterp o traj (p i) (first.2 + i * S.dt) := by
  obtain ⟨l, h1, h2, h3⟩ := controlLoop_ok o hs h0 hl hdt fuel first.2 le_rfl hfuel
  refine ⟨⟨splineDt (traj.map Prod.snd) maxDt, first.2 + 2 * splineDt (traj.map Prod.snd) maxDt, last.2, l⟩,
    fun i => (l[i]?.getD first).1, ?_, rfl, rfl, rfl, ?_, ?_⟩
  · unfold mkSpline
    rw [pyGet_iff.2 h0, ok_bindE, pyGet_iff.2 hl, ok_bindE]
    simp only
    rw [h1, ok_bindE]
    rfl
  · simp only
    apply List.ext_getElem?
    intro i
    by_cases hi : i < l.length
    · rw [uniform_get _ (by rw [← h2]; exact hi), List.getElem?_eq_getElem hi]
      rw [Option.getD_some, ← (h3 i _ (List.getElem?_eq_getElem hi)).1]
    · rw [List.getElem?_eq_none (by omega), List.getElem?_eq_none (by rw [uniform_length, ← h2]; omega)]
  · intro i hi
    simp only at hi ⊢
    have hi' : i < l.length := by rw [h2]; exact hi
    obtain ⟨e1, e2⟩ := h3 i _ (List.getElem?_eq_getElem hi')
    rw [List.getElem?_eq_getElem hi', Option.getD_some, ← e1]
    exact e2

theorem telescoping : ∀ (a : ℝ) (l : List ℝ), (List.zipWith (fun b a => b - a) l (a :: l)).sum = l.getLastD a - a
  | a, [] => by simp
  | a, b :: l => by
    rw [List.zipWith_cons_cons, List.sum_cons, telescoping b l, List.getLastD_cons]
    ring

/-- **C75, spacing.** The spacing is the larger of `max_dt` and the average spacing of the trajectory: it is never smaller than
`max_dt`, and exceeds it — although `max_dt` is documented as the maximum interval — exactly when the average does. -/
theorem C75_spacing (a b : ℝ) (l : List ℝ) (maxDt : ℝ) :
    splineDt (a :: b :: l) maxDt = max (((b :: l).getLastD a - a) / (l.length + 1)) maxDt ∧
    maxDt ≤ splineDt (a :: b :: l) maxDt ∧
    (maxDt < splineDt (a :: b :: l) maxDt ↔ maxDt < ((b :: l).getLastD a - a) / (l.length + 1)) := by
  have h : splineDt (a :: b :: l) maxDt = max (((b :: l).getLastD a - a) / (l.length + 1)) maxDt := by
    have hlen : (List.zipWith (fun b a => b - a) (b :: l) (a :: b :: l)).length = l.length + 1 := by simp
    have hmean : (List.zipWith (fun b a => b - a) (b :: l) (a :: b :: l)).sum
        / (List.zipWith (fun b a => b - a) (b :: l) (a :: b :: l)).length
        = ((b :: l).getLastD a - a) / ((l.length : ℝ) + 1) := by
      rw [telescoping a (b :: l), hlen]
      push_cast
      rfl
    unfold splineDt
    simp only [List.tail_cons]
    by_cases hc : (List.zipWith (fun b a => b - a) (b :: l) (a :: b :: l)).length ≠ 0 ∧
        (List.zipWith (fun b a => b - a) (b :: l) (a :: b :: l)).sum
          / (List.zipWith (fun b a => b - a) (b :: l) (a :: b :: l)).length > maxDt
    · refine (if_pos hc).trans ?_
      rw [hmean, max_eq_left]
      rw [← hmean]; exact hc.2.le
    · refine (if_neg hc).trans ?_
      rw [max_eq_right]
      by_contra hk
      exact hc ⟨by rw [hlen]; omega, by rw [hmean]; exact not_le.1 hk⟩
  refine ⟨h, by rw [h]; exact le_max_right _ _, ?_⟩
  rw [h, lt_max_iff]
  simp

/-- A two-point trajectory with points one second apart gets control points one second apart although `max_dt` is 0.1. -/
example : splineDt [0, 1] (1 / 10) = 1 := by
  rw [(C75_spacing 0 1 [] (1 / 10)).1]
  norm_num

/-- **C75, announced end.** The spline has no value during the last `dt` before the end time it announces (nor at the end time
itself): `get_pose`, `get_velocity` and `get_acceleration` return `None` for every time from `end_time - dt` on. -/
theorem C75_end_is_none (Log : Pose → Vec 6) (o : StateOps Pose n) (traj : List (Pose × ℝ))
    (hs : (traj.map Prod.snd).Pairwise (· ≤ ·)) (first last : Pose × ℝ) (h0 : traj[0]? = some first)
    (hl : traj[traj.length - 1]? = some last) (hdur : first.2 < last.2) (maxDt : ℝ)
    (hdt : 0 < splineDt (traj.map Prod.snd) maxDt) (fuel : ℕ)
    (hfuel : ⌈(last.2 - first.2) / splineDt (traj.map Prod.snd) maxDt⌉₊ < fuel) :
    ∃ S, mkSpline o traj maxDt fuel = .ok S ∧ ∀ t, S.endTime - S.dt ≤ t →
      getPose Log S.cps t = .ok none ∧ getVelocity Log S.cps t = .ok none ∧ getAcceleration Log S.cps t = .ok none := by
  obtain ⟨S, p, h1, h2, h3, h4, h5, h6⟩ := C75_control_points o traj hs first last h0 hl maxDt hdt fuel hfuel
  refine ⟨S, h1, ?_⟩
  intro t ht
  rw [← h2] at hdt
  have hpos : 0 < (last.2 - first.2) / S.dt := div_pos (by linarith) hdt
  have hN : 0 < ⌈(last.2 - first.2) / S.dt⌉₊ := Nat.ceil_pos.2 hpos
  rw [h5]
  refine (C58_window Log p hdt hN t).2 ?_
  rintro ⟨w1, w2⟩
  have hc : ((⌈(last.2 - first.2) / S.dt⌉₊ : ℕ) : ℝ) < (last.2 - first.2) / S.dt + 1 := Nat.ceil_lt_add_one hpos.le
  have hc2 : ((⌈(last.2 - first.2) / S.dt⌉₊ : ℝ) - 2) * S.dt < last.2 - first.2 - S.dt := by
    have : ((⌈(last.2 - first.2) / S.dt⌉₊ : ℝ) - 2) * S.dt < ((last.2 - first.2) / S.dt - 1) * S.dt :=
      mul_lt_mul_of_pos_right (by linarith) hdt
    rwa [sub_mul ((last.2 - first.2) / S.dt), div_mul_cancel₀ _ hdt.ne', one_mul] at this
  rw [h4] at ht
  linarith

/-- **C75, degenerate trajectories.** An empty trajectory is an `IndexError`; a trajectory without duration (for instance one
point) is accepted but the spline has no control point, and every query raises `IndexError`. -/
theorem C75_degenerate (Log : Pose → Vec 6) (o : StateOps Pose n) (maxDt : ℝ) (fuel : ℕ) (t : ℝ) :
    mkSpline o ([] : List (Pose × ℝ)) maxDt fuel = .error .indexError ∧
    ∀ (x : Pose × ℝ) (k : ℕ), 0 < splineDt ((List.replicate (k + 1) x).map Prod.snd) maxDt →
      ∃ S, mkSpline o (List.replicate (k + 1) x) maxDt (fuel + 1) = .ok S ∧ S.cps = [] ∧
        getPose Log S.cps t = .error .indexError := by
  refine ⟨rfl, ?_⟩
  intro x k hdt
  have h0 : (List.replicate (k + 1) x)[0]? = some x := by simp
  have hl : (List.replicate (k + 1) x)[(List.replicate (k + 1) x).length - 1]? = some x := by simp
  obtain ⟨S, p, h1, h2, h3, h4, h5, h6⟩ := C75_control_points o (List.replicate (k + 1) x)
    (by rw [List.map_replicate]; exact List.pairwise_replicate.2 (Or.inr le_rfl)) x x h0 hl maxDt hdt (fuel + 1) (by simp)
  refine ⟨S, h1, ?_, ?_⟩
  · rw [h5]; simp [uniformCps]
  · rw [h5]; simp only [sub_self, zero_div, Nat.ceil_zero]; rfl

end Ctor

/-- Translation by `d` along the first axis. -/
noncomputable def shiftPose (d : ℝ) : Pose := mkPose 1 ![d, 0, 0]

/-- The twist of a pure translation along the first axis. -/
noncomputable def shiftLog (X : Pose) : Vec 6 := ![0, 0, 0, X.pos 0, X.pos 1, X.pos 2]

/-- Non-vacuity of `C58_kinematics`: control points along a line, at the squares of the integers, with the logarithm of pure
translations. -/
theorem shift_exp (d : ℝ) : se3Exp (shiftLog (shiftPose d)) = shiftPose d := by
  have hw : se3Wedge (shiftLog (shiftPose d)) = fromBlocks 0 (.of fun i _ => ![d, 0, 0] i) 0 0 := by
    unfold se3Wedge
    congr 1
    · rw [show twRot (shiftLog (shiftPose d)) = 0 by ext i; fin_cases i <;> simp [twRot, shiftLog]]
      exact skew_zero
  unfold se3Exp
  rw [hw]
  have hsq : (fromBlocks (0 : Mat 3 3) (.of fun i (_ : Fin 1) => ![d, 0, 0] i) 0 0 : Pose) ^ 2 = 0 := by
    rw [pow_two, fromBlocks_multiply]
    simp
  have hexp := exp_hasSum (fromBlocks (0 : Mat 3 3) (.of fun i (_ : Fin 1) => ![d, 0, 0] i) 0 0 : Pose)
  have hfin : HasSum (fun k => ((Nat.factorial k : ℝ)⁻¹) • (fromBlocks (0 : Mat 3 3) (.of fun i (_ : Fin 1) => ![d, 0, 0] i) 0 0 : Pose) ^ k)
      (∑ k ∈ Finset.range 2, ((Nat.factorial k : ℝ)⁻¹) • (fromBlocks (0 : Mat 3 3) (.of fun i (_ : Fin 1) => ![d, 0, 0] i) 0 0 : Pose) ^ k) := by
    apply hasSum_sum_of_ne_finset_zero
    intro k hk
    have hk2 : 2 ≤ k := by simp at hk; omega
    obtain ⟨j, rfl⟩ := Nat.exists_eq_add_of_le hk2
    rw [pow_add, hsq, zero_mul, smul_zero]
  rw [hexp.unique hfin]
  simp [Finset.sum_range_succ, shiftPose, mkPose]
  rw [← fromBlocks_one, fromBlocks_add]
  congr 1 <;> simp

example : (∀ i : ℕ, i < 6 → IsPose (shiftPose ((i : ℝ) ^ 2))) ∧
    (∀ i : ℕ, i + 1 < 6 → se3Exp (shiftLog (se3Inv (shiftPose ((i : ℝ) ^ 2)) * shiftPose (((i + 1 : ℕ) : ℝ) ^ 2))) =
      se3Inv (shiftPose ((i : ℝ) ^ 2)) * shiftPose (((i + 1 : ℕ) : ℝ) ^ 2)) := by
  constructor
  · intro i _
    exact ⟨1, _, by simp [IsOrtho], rfl⟩
  · intro i _
    have : se3Inv (shiftPose ((i : ℝ) ^ 2)) * shiftPose (((i + 1 : ℕ) : ℝ) ^ 2) =
        shiftPose (((i + 1 : ℕ) : ℝ) ^ 2 - (i : ℝ) ^ 2) := by
      unfold se3Inv shiftPose
      rw [mkPose_rot, mkPose_pos, mkPose_mul]
      congr 1
      · simp
      · ext k; fin_cases k <;> simp <;> ring
    rw [this, shift_exp]

/-! ### Constant twist -/

section Screw

open scoped Matrix.Norms.Operator

theorem se3Exp_add_smul (a b : ℝ) (ξ : Vec 6) : se3Exp ((a + b) • ξ) = se3Exp (a • ξ) * se3Exp (b • ξ) := by
  unfold se3Exp
  rw [add_smul, show se3Wedge (a • ξ + b • ξ) = a • se3Wedge ξ + b • se3Wedge ξ by
    rw [← add_smul, se3Wedge_smul, add_smul], se3Wedge_smul, se3Wedge_smul]
  exact exp_add_of_commute (((Commute.refl _).smul_left a).smul_right b)

theorem se3Exp_comm_wedge (a : ℝ) (ξ : Vec 6) : se3Exp (a • ξ) * se3Wedge ξ = se3Wedge ξ * se3Exp (a • ξ) := by
  unfold se3Exp
  rw [se3Wedge_smul]
  exact (Commute.exp_left ((Commute.refl (se3Wedge ξ)).smul_left a)).eq

theorem segU_screw (X : Pose) (ξ : Vec 6) (u DT : ℝ) (h : DT ≠ 0) :
    segU X ξ ξ ξ u DT = ⟨X * se3Exp ((1 + u) • ξ), X * se3Exp ((1 + u) • ξ) * ((1 / DT) • se3Wedge ξ),
      X * se3Exp ((1 + u) • ξ) * ((1 / DT * (1 / DT)) • (se3Wedge ξ * se3Wedge ξ))⟩ := by
  have hsum : (basis u).1 + (basis u).2.1 + (basis u).2.2 = 1 + u := by simp only [basis]; ring
  have hE : se3Exp ((basis u).1 • ξ) * se3Exp ((basis u).2.1 • ξ) * se3Exp ((basis u).2.2 • ξ) = se3Exp ((1 + u) • ξ) := by
    rw [← se3Exp_add_smul, ← se3Exp_add_smul, hsum]
  have c0 := se3Exp_comm_wedge (basis u).1 ξ
  have c1 := se3Exp_comm_wedge (basis u).2.1 ξ
  have c2 := se3Exp_comm_wedge (basis u).2.2 ξ
  unfold segU
  simp only
  rw [← hE]
  generalize se3Exp ((basis u).1 • ξ) = A0 at *
  generalize se3Exp ((basis u).2.1 • ξ) = A1 at *
  generalize se3Exp ((basis u).2.2 • ξ) = A2 at *
  generalize se3Wedge ξ = W at *
  have m0 : ∀ Z : Pose, A0 * (W * Z) = W * (A0 * Z) := fun Z => by rw [← Matrix.mul_assoc, c0, Matrix.mul_assoc]
  have m1 : ∀ Z : Pose, A1 * (W * Z) = W * (A1 * Z) := fun Z => by rw [← Matrix.mul_assoc, c1, Matrix.mul_assoc]
  have m2 : ∀ Z : Pose, A2 * (W * Z) = W * (A2 * Z) := fun Z => by rw [← Matrix.mul_assoc, c2, Matrix.mul_assoc]
  congr 1
  · simp only [Matrix.mul_assoc]
  · simp only [Matrix.mul_assoc, Matrix.smul_mul, Matrix.mul_smul, m0, m1, m2, c0, c1, c2, ← add_smul]
    congr 1
    simp only [basisDot]
    field_simp
    ring
  · rw [Matrix.mul_assoc X]
    refine congrArg (X * ·) ?_
    simp only [Matrix.add_mul, Matrix.mul_add, Matrix.mul_assoc, Matrix.smul_mul, Matrix.mul_smul, m0, m1, m2, c0, c1, c2,
      smul_smul]
    generalize W * (W * (A0 * (A1 * A2))) = P
    generalize W * (A0 * (A1 * A2)) = Q
    have e1 : (basisDot u DT).1 * (basisDot u DT).1 + (basisDot u DT).2.1 * (basisDot u DT).2.1 +
        (basisDot u DT).2.2 * (basisDot u DT).2.2 + (basisDot u DT).2.1 * (2 * (basisDot u DT).1) +
        (basisDot u DT).2.2 * ((basisDot u DT).2.1 * 2) + (basisDot u DT).2.2 * (2 * (basisDot u DT).1) = 1 / DT * (1 / DT) := by
      simp only [basisDot]
      field_simp
      ring
    have e2 : (basisDdot u DT).1 + (basisDdot u DT).2.1 + (basisDdot u DT).2.2 = 0 := by
      simp only [basisDdot]
      field_simp
      ring
    have e3 : (basisDdot u DT).1 • Q + (basisDdot u DT).2.1 • Q + (basisDdot u DT).2.2 • Q = 0 := by
      rw [← add_smul, ← add_smul, e2, zero_smul]
    rw [← e1]
    refine Eq.trans ?_ (add_zero _)
    rw [← e3]
    generalize basisDdot u DT = bb
    generalize basisDot u DT = cc
    simp only [add_smul]
    abel

/-- **C58, constant twist.** If the control points move with a constant twist `ξ` per step from a pose `X` (a screw motion, e.g.
a straight line or a circular arc) and `Log` inverts `Exp` at `ξ`, then on the whole window the spline is that motion: at time `t`
the pose is `X Exp(((t - t0) / dt) ξ)`, the angular velocity is the rotation part of `ξ / dt`, the velocity is the translation
part of `ξ / dt` resolved with the current attitude, the angular acceleration is zero and the acceleration is `C (ω × v)`. -/
theorem C58_screw (Log : Pose → Vec 6) (ξ : Vec 6) (hlog : Log (se3Exp ξ) = ξ) (X : Pose) (hX : IsPose X) {t0 dt : ℝ}
    (hdt : 0 < dt) {m : ℕ} (t : ℝ) (h1 : t0 + dt ≤ t) (h2 : t < t0 + ((m : ℝ) - 2) * dt) :
    ∃ (C : Mat 3 3) (ω v : Vec 3), C = Pose.rot (X * se3Exp (((t - t0) / dt) • ξ)) ∧
      ω = ![ξ 0 / dt, ξ 1 / dt, ξ 2 / dt] ∧ v = ![ξ 3 / dt, ξ 4 / dt, ξ 5 / dt] ∧
      getPose Log (uniformCps (fun i => X * se3Exp ((i : ℝ) • ξ)) t0 dt m) t = .ok (some (X * se3Exp (((t - t0) / dt) • ξ), t)) ∧
      getVelocity Log (uniformCps (fun i => X * se3Exp ((i : ℝ) • ξ)) t0 dt m) t = .ok (some (ω, C *ᵥ v)) ∧
      getAcceleration Log (uniformCps (fun i => X * se3Exp ((i : ℝ) • ξ)) t0 dt m) t =
        .ok (some (0, C *ᵥ ![ω 1 * v 2 - ω 2 * v 1, ω 2 * v 0 - ω 0 * v 2, ω 0 * v 1 - ω 1 * v 0])) := by
  obtain ⟨k1, k2⟩ := cell_window hdt h1 h2
  obtain ⟨c1, c2⟩ := cell_spec hdt (show t0 ≤ t by linarith)
  have hb := boundingCPs_some (fun i : ℕ => X * se3Exp ((i : ℝ) • ξ)) hdt k1 k2 c1 c2
  generalize hk : cell t0 dt t = k at *
  have hpose : ∀ i : ℝ, IsPose (X * se3Exp (i • ξ)) := fun i => hX.mul (se3Exp_isPose _)
  have hrel : ∀ i : ℕ, relLog Log (X * se3Exp ((i : ℝ) • ξ)) (X * se3Exp (((i + 1 : ℕ) : ℝ) • ξ)) = ξ := by
    intro i
    unfold relLog
    rw [Nat.cast_add, Nat.cast_one, se3Exp_add_smul, one_smul, ← Matrix.mul_assoc X, ← Matrix.mul_assoc, se3Inv_mul (hpose _),
      Matrix.one_mul, hlog]
  obtain ⟨j, rfl⟩ : ∃ j, k = j + 1 := ⟨k - 1, by omega⟩
  have hs : segVals Log (fourU (fun i : ℕ => X * se3Exp ((i : ℝ) • ξ)) t0 dt (j + 1)) t =
      ⟨X * se3Exp (((t - t0) / dt) • ξ), X * se3Exp (((t - t0) / dt) • ξ) * ((1 / dt) • se3Wedge ξ),
        X * se3Exp (((t - t0) / dt) • ξ) * ((1 / dt * (1 / dt)) • (se3Wedge ξ * se3Wedge ξ))⟩ := by
    rw [seg_uniform, Nat.add_sub_cancel, hrel, hrel, hrel, segU_screw _ _ _ _ hdt.ne']
    have : X * se3Exp ((j : ℝ) • ξ) * se3Exp ((1 + (t - (t0 + ((j + 1 : ℕ) : ℝ) * dt)) / dt) • ξ) =
        X * se3Exp (((t - t0) / dt) • ξ) := by
      rw [Matrix.mul_assoc, ← se3Exp_add_smul]
      congr 3
      push_cast
      field_simp
      ring
    rw [this]
  have hort := (hpose ((t - t0) / dt)).ortho
  have heq := (hpose ((t - t0) / dt)).eq
  refine ⟨_, _, _, rfl, rfl, rfl, ?_⟩
  unfold getPose getVelocity getAcceleration
  rw [hb]
  generalize X * se3Exp (((t - t0) / dt) • ξ) = Y at *
  have hW : (1 / dt) • se3Wedge ξ = fromBlocks (skew ![ξ 0 / dt, ξ 1 / dt, ξ 2 / dt])
      (.of fun i _ => ![ξ 3 / dt, ξ 4 / dt, ξ 5 / dt] i) 0 0 := by
    unfold se3Wedge
    rw [fromBlocks_smul, smul_zero, smul_zero, ← skew_smul]
    congr 1
    · congr 1
      ext i; fin_cases i <;> simp [twRot, div_eq_inv_mul]
    · ext i _; fin_cases i <;> simp [twPos, div_eq_inv_mul]
  have hWW : (1 / dt * (1 / dt)) • (se3Wedge ξ * se3Wedge ξ) = ((1 / dt) • se3Wedge ξ) * ((1 / dt) • se3Wedge ξ) := by
    rw [Matrix.smul_mul, Matrix.mul_smul, smul_smul]
  rw [hWW, hW] at hs
  generalize hω : (![ξ 0 / dt, ξ 1 / dt, ξ 2 / dt] : Vec 3) = ω at *
  generalize hv : (![ξ 3 / dt, ξ 4 / dt, ξ 5 / dt] : Vec 3) = v at *
  have hblk : ∀ (A : Mat 3 3) (b : Matrix (Fin 3) (Fin 1) ℝ), Y * fromBlocks A b 0 0 =
      fromBlocks (Pose.rot Y * A) (Pose.rot Y * b) 0 0 := by
    intro A b
    conv_lhs => rw [heq]
    unfold mkPose
    rw [fromBlocks_multiply]
    simp
  have hsq : ∀ Z : Pose, Z = fromBlocks (skew ω) (.of fun i _ => v i) 0 0 → Z * Z =
      fromBlocks (skew ω * skew ω) (skew ω * (.of fun i _ => v i)) 0 0 := by
    rintro Z rfl
    rw [fromBlocks_multiply]
    simp
  rw [hsq _ rfl, hblk, hblk] at hs
  refine ⟨?_, ?_, ?_⟩
  · show Except.ok (some (_, t)) = _
    rw [hs]
  · show Except.ok (some (angVel _, _)) = _
    rw [hs]
    have e1 : ∀ B1 B2 : Matrix (Fin 3) (Fin 1) ℝ, angVel ⟨Y, fromBlocks (Pose.rot Y * skew ω) B1 0 0,
        fromBlocks (Pose.rot Y * (skew ω * skew ω)) B2 0 0⟩ = ω := by
      intro B1 B2
      unfold angVel Pose.rot
      rw [toBlocks_fromBlocks₁₁, ← Matrix.mul_assoc]
      change vee ((Pose.rot Y)ᵀ * Pose.rot Y * skew ω) = ω
      rw [show (Pose.rot Y)ᵀ * Pose.rot Y = 1 from hort, Matrix.one_mul, vee_skew]
    rw [e1]
    rfl
  · show Except.ok (some (angAcc _, _)) = _
    rw [hs]
    have e1 : ∀ B1 B2 : Matrix (Fin 3) (Fin 1) ℝ, angAcc ⟨Y, fromBlocks (Pose.rot Y * skew ω) B1 0 0,
        fromBlocks (Pose.rot Y * (skew ω * skew ω)) B2 0 0⟩ = 0 := by
      intro B1 B2
      unfold angAcc Pose.rot
      simp only [toBlocks_fromBlocks₁₁]
      change vee ((Pose.rot Y)ᵀ * (Pose.rot Y * (skew ω * skew ω) - Pose.rot Y * skew ω * ((Pose.rot Y)ᵀ * (Pose.rot Y * skew ω)))) = 0
      rw [← Matrix.mul_assoc (Pose.rot Y)ᵀ (Pose.rot Y), show (Pose.rot Y)ᵀ * Pose.rot Y = 1 from hort, Matrix.one_mul, Matrix.mul_assoc, sub_self,
        Matrix.mul_zero]
      ext i; fin_cases i <;> rfl
    rw [e1]
    congr 3
    unfold Pose.pos
    rw [toBlocks_fromBlocks₁₂, ← skew_mulVec]
    ext i
    simp [Matrix.mul_apply, Matrix.mulVec, dotProduct]

end Screw

/-- Non-vacuity of `C58_screw`: control points two units apart on a line, with the logarithm of pure translations. -/
example : getPose shiftLog (uniformCps (fun i => 1 * se3Exp ((i : ℝ) • shiftLog (shiftPose 2))) 0 1 5) (5 / 2) =
    .ok (some (1 * se3Exp (((5 / 2 - 0) / 1 : ℝ) • shiftLog (shiftPose 2)), 5 / 2)) := by
  obtain ⟨_, _, _, _, _, _, h, _⟩ := C58_screw shiftLog (shiftLog (shiftPose 2)) (by rw [shift_exp]) 1 isPose_one (t0 := 0)
    (dt := 1) one_pos (m := 5) (5 / 2) (by norm_num) (by norm_num)
  exact h


end Verif
