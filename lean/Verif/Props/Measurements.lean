import Verif.Lemmas.Measurements
import Verif.Props.Camera

/-! C64: the Jacobians of the measurement models are the derivatives of their `evaluate`. -/

namespace Verif

open Matrix

set_option linter.unusedVariables false
set_option linter.unusedSectionVars false

/-- Specification: at `x` the model evaluates on every perturbed state, its Jacobian is computed, and it is the derivative
of the map from a perturbation to the measurement of the perturbed state. -/
def JacExact {S κ μ : Type} [Fintype κ] [Fintype μ] [DecidableEq κ] (plus : S → (κ → ℝ) → S)
    (evaluate : S → Except Err (μ → ℝ)) (jacobian : S → Except Err (Matrix μ κ ℝ)) (x : S) : Prop :=
  ∃ (y : (κ → ℝ) → μ → ℝ) (J : Matrix μ κ ℝ),
    (∀ ξ, evaluate (plus x ξ) = .ok (y ξ)) ∧ jacobian x = .ok J ∧ HasJac y J

/-- A scalar measurement as an array with one entry. -/
def one1 {S : Type} (f : S → Except Err ℝ) (x : S) : Except Err (Fin 1 → ℝ) := (f x).map fun r _ => r

section

variable {S κ α : Type} [Fintype κ] [DecidableEq κ] [Fintype α] {n : ℕ} {A : AttGroup α n} {P : PoseOps S κ α n} {mem : S → Prop}

theorem AttLaws.wedge_t (hA : A.Laws) (a : α → ℝ) (b : Vec n) : (A.wedge a)ᵀ *ᵥ b = -(A.odot b *ᵥ a) := by
  rw [hA.skew, neg_mulVec, hA.odot]

/-- `PointRelativePosition` on a class of states with attitude and position. -/
theorem prp_exact (hA : A.Laws) (L : PosLaws A P mem) (p : Vec n) {x : S} (h : mem x) :
    JacExact P.plus (prpEval P p) (prpJac A P p) x := by
  have hO := L.ortho x h
  have hz := L.att_zero x
  have hr := L.pos_zero x
  cases hd : P.dir x with
  | right =>
    obtain ⟨J, hJ, eJ⟩ := L.blocks_pos (some (-A.odot ((P.att x)ᵀ *ᵥ (p - L.r x)))) (-1)
    refine ⟨fun ξ => (P.att (P.plus x ξ))ᵀ *ᵥ (p - L.r (P.plus x ξ)), J, fun ξ => ?_, ?_, ?_⟩
    · simp only [prpEval, L.pos_eq]; rfl
    · simp only [prpJac, L.pos_eq, hd]; exact hJ
    · refine ((L.att_right x h hd).transpose.mulVec ((HasVD.const p).sub (L.pos_right x h hd))).hasJac fun ξ => ?_
      rw [eJ, hz, hr]
      simp only [Option.getD_some, transpose_mul, ← mulVec_mulVec, AttLaws.wedge_t hA, neg_mulVec, one_mulVec, zero_sub,
        mulVec_neg]
      congr 1
      rw [mulVec_mulVec, hO, one_mulVec]
  | left =>
    obtain ⟨J, hJ, eJ⟩ := L.blocks_pos (some (-(P.att x)ᵀ * A.odot p)) (-(P.att x)ᵀ)
    refine ⟨fun ξ => (P.att (P.plus x ξ))ᵀ *ᵥ (p - L.r (P.plus x ξ)), J, fun ξ => ?_, ?_, ?_⟩
    · simp only [prpEval, L.pos_eq]; rfl
    · simp only [prpJac, L.pos_eq, hd]; exact hJ
    · refine ((L.att_left x h hd).transpose.mulVec ((HasVD.const p).sub (L.pos_left x h hd))).hasJac fun ξ => ?_
      rw [eJ, hz, hr]
      simp only [Option.getD_some, transpose_mul, ← mulVec_mulVec, neg_mulVec, zero_sub, mulVec_neg, Matrix.neg_mul, hA.skew,
        mulVec_add, mulVec_sub]
      rw [← hA.odot]
      abel

theorem npNorm_ne {m : ℕ} {v : Vec m} (h : v ≠ 0) : npNorm v ≠ 0 := by
  rw [npNorm]
  intro e
  have hp : 0 ≤ v ⬝ᵥ v := Finset.sum_nonneg fun i _ => mul_self_nonneg _
  rw [Real.sqrt_eq_zero hp] at e
  exact h (dotProduct_self_eq_zero.1 e)

/-- The position of a tag in the body: its derivative, and the row that the range models use. -/
theorem tag_laws (hA : A.Laws) (L : PosLaws A P mem) (tag : Vec n) {x : S} (h : mem x) :
    ∃ T : (κ → ℝ) → Vec n, HasVD (fun ξ => P.att (P.plus x ξ) *ᵥ tag + L.r (P.plus x ξ)) T ∧
      ∀ ρ, ∃ J, tagBlocks A P ρ tag x (L.r x) = .ok J ∧ ∀ ξ, J *ᵥ ξ = fun _ => ρ ⬝ᵥ T ξ := by
  have hz := L.att_zero x
  have hr := L.pos_zero x
  cases hd : P.dir x with
  | right =>
    refine ⟨_, ((L.att_right x h hd).mulVec (HasVD.const tag)).add (L.pos_right x h hd), fun ρ => ?_⟩
    obtain ⟨J, hJ, eJ⟩ := L.blocks_pos (some (rowMat ρ * P.att x * A.odot tag)) (rowMat ρ * P.att x)
    refine ⟨J, by simp only [tagBlocks, hd]; exact hJ, fun ξ => ?_⟩
    rw [eJ]
    simp only [Option.getD_some, mulVec_zero, add_zero, ← mulVec_mulVec, hA.odot, ← mulVec_add]
    rfl
  | left =>
    refine ⟨_, ((L.att_left x h hd).mulVec (HasVD.const tag)).add (L.pos_left x h hd), fun ρ => ?_⟩
    obtain ⟨J, hJ, eJ⟩ := L.blocks_pos (some (rowMat ρ * A.odot (P.att x *ᵥ tag + L.r x))) (rowMat ρ * (1 : Mat n n))
    refine ⟨J, by simp only [tagBlocks, hd]; exact hJ, fun ξ => ?_⟩
    rw [eJ]
    simp only [Option.getD_some, mulVec_zero, add_zero, ← mulVec_mulVec, ← hA.odot, mulVec_add, one_mulVec]
    rw [← mulVec_add, ← mulVec_add, add_assoc]
    rfl

/-- `RangePoseToAnchor`, away from the anchor. -/
theorem range_exact (hA : A.Laws) (L : PosLaws A P mem) (anchor tag : Vec n) {x : S} (h : mem x)
    (hne : P.att x *ᵥ tag + L.r x ≠ anchor) :
    JacExact P.plus (one1 (rangeEval P anchor tag)) (rangeJac A P anchor tag) x := by
  obtain ⟨T, hT, hB⟩ := tag_laws hA L tag h
  have h0 : P.att x *ᵥ tag + L.r x - anchor ≠ 0 := sub_ne_zero.2 hne
  obtain ⟨J, hJ, eJ⟩ := hB ((npNorm (P.att x *ᵥ tag + L.r x - anchor))⁻¹ • (P.att x *ᵥ tag + L.r x - anchor))
  refine ⟨fun ξ _ => npNorm (P.att (P.plus x ξ) *ᵥ tag + L.r (P.plus x ξ) - anchor), J, fun ξ => ?_, ?_, ?_⟩
  · simp only [one1, rangeEval, L.pos_eq]; rfl
  · rw [rangeJac, L.pos_eq]
    show npScale (npNorm (P.att x *ᵥ tag + L.r x - anchor)) (P.att x *ᵥ tag + L.r x - anchor) >>= _ = _
    rw [npScale, if_neg (npNorm_ne h0)]
    exact hJ
  · have e0 : P.att (P.plus x 0) *ᵥ tag + L.r (P.plus x 0) - anchor = P.att x *ᵥ tag + L.r x - anchor := by
      rw [L.att_zero, L.pos_zero]
    have hN := (hT.sub (HasVD.const anchor)).norm (by rw [e0]; exact h0)
    refine HasVD.hasJac (fun _ => hN) fun ξ => ?_
    rw [eJ, e0]
    funext i
    simp only [sub_zero]

/-- At the anchor the Jacobian is a division of zero by zero. -/
theorem range_nan (L : PosLaws A P mem) (anchor tag : Vec n) {x : S} (he : P.att x *ᵥ tag + L.r x = anchor) :
    rangeJac A P anchor tag x = .error .nan := by
  rw [rangeJac, L.pos_eq]
  show npScale (npNorm (P.att x *ᵥ tag + L.r x - anchor)) (P.att x *ᵥ tag + L.r x - anchor) >>= _ = _
  have : npNorm (P.att x *ᵥ tag + L.r x - anchor) = 0 := by rw [he, sub_self]; simp [npNorm]
  rw [npScale, if_pos this]
  rfl

/-- `AbsolutePosition`. -/
theorem ap_exact (hA : A.Laws) (L : PosLaws A P mem) {x : S} (h : mem x) : JacExact P.plus (apEval P) (apJac A P) x := by
  cases hd : P.dir x with
  | right =>
    obtain ⟨J, hJ, eJ⟩ := L.blocks_pos none (P.att x)
    refine ⟨fun ξ => L.r (P.plus x ξ), J, fun ξ => L.pos_eq _, ?_, ?_⟩
    · simp only [apJac, hd]; exact hJ
    · refine (L.pos_right x h hd).hasJac fun ξ => ?_
      rw [eJ]; simp
  | left =>
    obtain ⟨J, hJ, eJ⟩ := L.blocks_pos (some (A.odot (L.r x))) 1
    refine ⟨fun ξ => L.r (P.plus x ξ), J, fun ξ => L.pos_eq _, ?_, ?_⟩
    · simp only [apJac, hd, L.pos_eq]; exact hJ
    · refine (L.pos_left x h hd).hasJac fun ξ => ?_
      rw [eJ, hA.odot]; simp

/-- `AbsoluteVelocity`. -/
theorem av_exact (hA : A.Laws) (L : VelLaws A P mem) {x : S} (h : mem x) : JacExact P.plus (avEval P) (avJac A P) x := by
  cases hd : P.dir x with
  | right =>
    obtain ⟨J, hJ, eJ⟩ := L.blocks_vel none (P.att x)
    refine ⟨fun ξ => L.v (P.plus x ξ), J, fun ξ => L.vel_eq _, ?_, ?_⟩
    · simp only [avJac, hd]; exact hJ
    · refine (L.vel_right x h hd).hasJac fun ξ => ?_
      rw [eJ]; simp
  | left =>
    obtain ⟨J, hJ, eJ⟩ := L.blocks_vel (some (A.odot (L.v x))) 1
    refine ⟨fun ξ => L.v (P.plus x ξ), J, fun ξ => L.vel_eq _, ?_, ?_⟩
    · simp only [avJac, hd, L.vel_eq]; exact hJ
    · refine (L.vel_left x h hd).hasJac fun ξ => ?_
      rw [eJ, hA.odot]; simp

/-- `Gravitometer`, `Magnetometer`. -/
theorem vd_exact (hA : A.Laws) (L : AttLaws A P mem) (g : Vec n) {x : S} (h : mem x) :
    JacExact P.plus (vdEval P g) (vdJac A P g) x := by
  have hz := L.att_zero x
  cases hd : P.dir x with
  | right =>
    obtain ⟨J, hJ, eJ⟩ := L.blocks_att (-A.odot ((P.att x)ᵀ *ᵥ g))
    refine ⟨fun ξ => (P.att (P.plus x ξ))ᵀ *ᵥ g, J, fun ξ => rfl, ?_, ?_⟩
    · simp only [vdJac, hd]; exact hJ
    · refine ((L.att_right x h hd).transpose.mulVec (HasVD.const g)).hasJac fun ξ => ?_
      rw [eJ]
      simp only [transpose_mul, ← mulVec_mulVec, AttLaws.wedge_t hA, neg_mulVec, mulVec_zero, add_zero]
  | left =>
    obtain ⟨J, hJ, eJ⟩ := L.blocks_att ((P.att x)ᵀ * -A.odot g)
    refine ⟨fun ξ => (P.att (P.plus x ξ))ᵀ *ᵥ g, J, fun ξ => rfl, ?_, ?_⟩
    · simp only [vdJac, hd]; exact hJ
    · refine ((L.att_left x h hd).transpose.mulVec (HasVD.const g)).hasJac fun ξ => ?_
      rw [eJ]
      simp only [transpose_mul, ← mulVec_mulVec, AttLaws.wedge_t hA, neg_mulVec, mulVec_zero, add_zero]

end

section

variable {S κ : Type} [Fintype κ] [DecidableEq κ] {P : PoseOps S κ (Fin 3) 3} {mem : S → Prop}

/-- The height that `Altitude` measures; its Jacobian is computed without regard to the minimum. -/
theorem alt_exact (L : PosLaws so3Att P mem) (bias : ℝ) {x : S} (h : mem x) :
    JacExact P.plus (one1 fun x => (altEval P none bias x).map fun o => o.getD 0) (altJac P) x := by
  have hy : ∀ ξ, one1 (fun x => (altEval P none bias x).map fun o => o.getD 0) (P.plus x ξ) =
      .ok fun _ => L.r (P.plus x ξ) 2 + bias := by
    intro ξ
    simp only [one1, altEval, L.pos_eq]; rfl
  cases hd : P.dir x with
  | right =>
    obtain ⟨J, hJ, eJ⟩ := L.blocks_pos none (rowMat (P.att x 2))
    refine ⟨_, J, hy, ?_, ?_⟩
    · simp only [altJac, hd]; exact hJ
    · refine HasVD.hasJac (fun _ => (L.pos_right x h hd 2).add (HasD.const bias)) fun ξ => ?_
      rw [eJ]
      funext i
      simp [rowMat, Matrix.mulVec]
  | left =>
    obtain ⟨J, hJ, eJ⟩ := L.blocks_pos (some (rowMat (so3Att.odot (L.r x) 2))) !![0, 0, 1]
    refine ⟨_, J, hy, ?_, ?_⟩
    · simp only [altJac, hd, L.pos_eq]; exact hJ
    · refine HasVD.hasJac (fun _ => (L.pos_left x h hd 2).add (HasD.const bias)) fun ξ => ?_
      rw [eJ]
      funext i
      have e := congrFun (so3Att_laws.odot (L.attP ξ) (L.r x)) 2
      simp only [Pi.add_apply, Option.getD_some, e, add_zero]
      congr 1
      simp [Matrix.mulVec, dotProduct, Fin.sum_univ_three]

end

/-! ### The classes -/

/-- C64: `PointRelativePosition` on `SE2State`, `SE3State`, `SE23State`, `IMUState`. -/
theorem C64_point_relative_position :
    (∀ (p : Vec 2) x, IsSE2 x.value → JacExact se2Ops.plus (prpEval se2Ops p) (prpJac so2Att se2Ops p) x) ∧
    (∀ (p : Vec 3) x, IsSE3 x.value → JacExact se3Ops.plus (prpEval se3Ops p) (prpJac so3Att se3Ops p) x) ∧
    (∀ (p : Vec 3) x, IsSE23 x.value → JacExact se23Ops.plus (prpEval se23Ops p) (prpJac so3Att se23Ops p) x) ∧
    ∀ (p : Vec 3) x, IsSE23 x.pose → JacExact imuOps.plus (prpEval imuOps p) (prpJac so3Att imuOps p) x :=
  ⟨fun p x h => prp_exact so2Att_laws se2State p h, fun p x h => prp_exact so3Att_laws se3State p h,
    fun p x h => prp_exact so3Att_laws se23Pos p h, fun p x h => prp_exact so3Att_laws imuPos p h⟩

/-- The position of the tag in the world frame (specification). -/
def IsAtAnchor {S κ α : Type} {n : ℕ} (P : PoseOps S κ α n) (anchor tag : Vec n) (x : S) : Prop :=
  ∃ r, P.pos x = .ok r ∧ P.att x *ᵥ tag + r = anchor

/-- C64: `RangePoseToAnchor`: exact unless the tag is at the anchor, where the Jacobian is not a number. -/
theorem C64_range_to_anchor :
    (∀ (anchor tag : Vec 2) x, IsSE2 x.value → ¬ IsAtAnchor se2Ops anchor tag x →
      JacExact se2Ops.plus (one1 (rangeEval se2Ops anchor tag)) (rangeJac so2Att se2Ops anchor tag) x) ∧
    (∀ (anchor tag : Vec 3) x, IsSE3 x.value → ¬ IsAtAnchor se3Ops anchor tag x →
      JacExact se3Ops.plus (one1 (rangeEval se3Ops anchor tag)) (rangeJac so3Att se3Ops anchor tag) x) ∧
    (∀ (anchor tag : Vec 3) x, IsSE23 x.value → ¬ IsAtAnchor se23Ops anchor tag x →
      JacExact se23Ops.plus (one1 (rangeEval se23Ops anchor tag)) (rangeJac so3Att se23Ops anchor tag) x) ∧
    (∀ (anchor tag : Vec 3) x, IsSE23 x.pose → ¬ IsAtAnchor imuOps anchor tag x →
      JacExact imuOps.plus (one1 (rangeEval imuOps anchor tag)) (rangeJac so3Att imuOps anchor tag) x) ∧
    (∀ (anchor tag : Vec 2) x, IsAtAnchor se2Ops anchor tag x → rangeJac so2Att se2Ops anchor tag x = .error .nan) ∧
    ∀ (anchor tag : Vec 3) x, IsAtAnchor se3Ops anchor tag x → rangeJac so3Att se3Ops anchor tag x = .error .nan := by
  refine ⟨fun a t x h hn => range_exact so2Att_laws se2State a t h fun e => hn ⟨_, se2State.pos_eq x, e⟩,
    fun a t x h hn => range_exact so3Att_laws se3State a t h fun e => hn ⟨_, se3State.pos_eq x, e⟩,
    fun a t x h hn => range_exact so3Att_laws se23Pos a t h fun e => hn ⟨_, se23Pos.pos_eq x, e⟩,
    fun a t x h hn => range_exact so3Att_laws imuPos a t h fun e => hn ⟨_, imuPos.pos_eq x, e⟩, ?_, ?_⟩
  · rintro a t x ⟨r, hr, e⟩
    have : r = se2State.r x := by
      have := (se2State.pos_eq x).symm.trans hr
      injection this with this
      exact this.symm
    exact range_nan se2State a t (by rw [← this]; exact e)
  · rintro a t x ⟨r, hr, e⟩
    have : r = se3State.r x := by
      have := (se3State.pos_eq x).symm.trans hr
      injection this with this
      exact this.symm
    exact range_nan se3State a t (by rw [← this]; exact e)

/-- C64: `AbsolutePosition` on `SE2State`, `SE3State`, `SE23State`, `IMUState`; `AbsoluteVelocity` on the last two. -/
theorem C64_absolute :
    (∀ x, IsSE2 x.value → JacExact se2Ops.plus (apEval se2Ops) (apJac so2Att se2Ops) x) ∧
    (∀ x, IsSE3 x.value → JacExact se3Ops.plus (apEval se3Ops) (apJac so3Att se3Ops) x) ∧
    (∀ x, IsSE23 x.value → JacExact se23Ops.plus (apEval se23Ops) (apJac so3Att se23Ops) x) ∧
    (∀ x, IsSE23 x.pose → JacExact imuOps.plus (apEval imuOps) (apJac so3Att imuOps) x) ∧
    (∀ x, IsSE23 x.value → JacExact se23Ops.plus (avEval se23Ops) (avJac so3Att se23Ops) x) ∧
    ∀ x, IsSE23 x.pose → JacExact imuOps.plus (avEval imuOps) (avJac so3Att imuOps) x :=
  ⟨fun x h => ap_exact so2Att_laws se2State h, fun x h => ap_exact so3Att_laws se3State h,
    fun x h => ap_exact so3Att_laws se23Pos h, fun x h => ap_exact so3Att_laws imuPos h,
    fun x h => av_exact so3Att_laws se23Vel h, fun x h => av_exact so3Att_laws imuVel h⟩

/-- C64: `Gravitometer` and `Magnetometer` on `SO3State`, `SE3State`, `SE23State`, `IMUState`. -/
theorem C64_vector_direction (g : Vec 3) :
    (∀ x, IsRot x.value → JacExact so3Ops.plus (vdEval so3Ops g) (vdJac so3Att so3Ops g) x) ∧
    (∀ x, IsSE3 x.value → JacExact se3Ops.plus (vdEval se3Ops g) (vdJac so3Att se3Ops g) x) ∧
    (∀ x, IsSE23 x.value → JacExact se23Ops.plus (vdEval se23Ops g) (vdJac so3Att se23Ops g) x) ∧
    ∀ x, IsSE23 x.pose → JacExact imuOps.plus (vdEval imuOps g) (vdJac so3Att imuOps g) x :=
  ⟨fun x h => vd_exact so3Att_laws so3State g h, fun x h => vd_exact so3Att_laws se3State.toAttLaws g h,
    fun x h => vd_exact so3Att_laws se23Att g h, fun x h => vd_exact so3Att_laws imuAtt g h⟩

/-- C64: `Altitude` on `SE3State`, `SE23State`, `IMUState`, without a minimum. -/
theorem C64_altitude (bias : ℝ) :
    (∀ x, IsSE3 x.value → JacExact se3Ops.plus (one1 fun x => (altEval se3Ops none bias x).map fun o => o.getD 0) (altJac se3Ops) x) ∧
    (∀ x, IsSE23 x.value →
      JacExact se23Ops.plus (one1 fun x => (altEval se23Ops none bias x).map fun o => o.getD 0) (altJac se23Ops) x) ∧
    ∀ x, IsSE23 x.pose →
      JacExact imuOps.plus (one1 fun x => (altEval imuOps none bias x).map fun o => o.getD 0) (altJac imuOps) x :=
  ⟨fun x h => alt_exact se3State bias h, fun x h => alt_exact se23Pos bias h, fun x h => alt_exact imuPos bias h⟩

/-- C64: with a minimum, `Altitude` gives the height plus bias if that exceeds the minimum, and nothing otherwise. -/
theorem C64_altitude_minimum {S κ : Type} (P : PoseOps S κ (Fin 3) 3) (m bias : ℝ) (x : S) (r : Vec 3) (h : P.pos x = .ok r) :
    (r 2 + bias > m → altEval P (some m) bias x = .ok (some (r 2 + bias))) ∧
    (r 2 + bias ≤ m → altEval P (some m) bias x = .ok none) ∧
    altEval P none bias x = .ok (some (r 2 + bias)) := by
  classical
  refine ⟨fun hm => ?_, fun hm => ?_, ?_⟩
  · rw [altEval, h]
    show Except.ok (if r 2 + bias > m then some (r 2 + bias) else none) = _
    rw [if_pos hm]
  · rw [altEval, h]
    show Except.ok (if r 2 + bias > m then some (r 2 + bias) else none) = _
    rw [if_neg (not_lt.2 hm)]
  · rw [altEval, h]; rfl

/-- `VectorState.plus` on values. -/
def vecPlus {n : ℕ} (x ξ : Vec n) : Vec n := x + ξ

/-- C64: the models of vector states: `LinearMeasurement`, `OneDimensionalPositionVelocityRange`, `RangePointToAnchor`. -/
theorem C64_vector_states :
    (∀ {n m : ℕ} (C : Mat m n) x, JacExact vecPlus (fun x => .ok (linEval C x)) (fun x => .ok (linJac C x)) x) ∧
    (∀ x, JacExact vecPlus (one1 fun x => .ok (odpvEval x)) (fun x => .ok (odpvJac x)) x) ∧
    (∀ {n d : ℕ} (h : d ≤ n) (anchor : Vec d) x, headVec h x ≠ anchor →
      JacExact vecPlus (one1 fun x => .ok (rpaEval h anchor x)) (rpaJac h anchor) x) ∧
    ∀ {n d : ℕ} (h : d ≤ n) (anchor : Vec d) x, headVec h x = anchor → rpaJac h anchor x = .error .nan := by
  have hx : ∀ {n : ℕ} (x : Vec n), HasVD (fun ξ => x + ξ) (fun ξ => ξ) := fun x i =>
    ((HasD.const (x i)).add (HasD.proj i)).congr (fun ξ => rfl) (fun ξ => zero_add _)
  refine ⟨fun {n m} C x => ⟨fun ξ => C *ᵥ (x + ξ), C, fun ξ => rfl, rfl, ?_⟩,
    fun x => ⟨fun ξ _ => x 0 + ξ 0, _, fun ξ => rfl, rfl, ?_⟩, fun {n d} h anchor x hne => ?_, fun {n d} h anchor x he => ?_⟩
  · refine ((HasMD.const C).mulVec (hx x)).hasJac fun ξ => ?_
    rw [zero_mulVec, zero_add]
  · refine HasVD.hasJac (fun _ => hx x 0) fun ξ => ?_
    funext i
    simp [odpvJac, Matrix.mulVec, dotProduct, Fin.sum_univ_two]
  · have h0 : headVec h x - anchor ≠ 0 := sub_ne_zero.2 hne
    refine ⟨fun ξ _ => npNorm (anchor - headVec h (x + ξ)),
      .of fun _ j => if hj : j.val < d then ((npNorm (headVec h x - anchor))⁻¹ • (headVec h x - anchor)) ⟨j, hj⟩ else 0,
      fun ξ => rfl, ?_, ?_⟩
    · rw [rpaJac]
      show npScale (npNorm (headVec h x - anchor)) (headVec h x - anchor) >>= _ = _
      rw [npScale, if_neg (npNorm_ne h0)]
      rfl
    · have hV : HasVD (fun ξ => headVec h (x + ξ) - anchor) (fun ξ => headVec h ξ) := fun i =>
        ((hx x (Fin.castLE h i)).sub (HasD.const (anchor i))).congr (fun ξ => rfl) (fun ξ => sub_zero _)
      have e0 : headVec h (x + 0) - anchor = headVec h x - anchor := by rw [add_zero]
      have hN := hV.norm (by rw [e0]; exact h0)
      rw [e0] at hN
      have hN' : HasD (fun ξ => npNorm (anchor - headVec h (x + ξ)))
          (fun ξ => ((npNorm (headVec h x - anchor))⁻¹ • (headVec h x - anchor)) ⬝ᵥ headVec h ξ) :=
        hN.congr (fun ξ => by rw [npNorm, npNorm, ← neg_sub, neg_dotProduct_neg]) (fun ξ => rfl)
      refine HasVD.hasJac (fun _ => hN') fun ξ => ?_
      funext i
      simp only [Matrix.mulVec, dotProduct, of_apply]
      set w := (npNorm (headVec h x - anchor))⁻¹ • (headVec h x - anchor)
      symm
      refine Finset.sum_of_injOn (Fin.castLE h) (fun a _ b _ e => Fin.castLE_injective h e) (fun a _ => Finset.mem_coe.2 (Finset.mem_univ _)) ?_ ?_
      · intro j _ hj
        have : ¬ j.val < d := fun hlt => hj ⟨⟨j, hlt⟩, Finset.mem_coe.2 (Finset.mem_univ _), rfl⟩
        rw [dif_neg this, zero_mul]
      · intro a _
        rw [dif_pos (by exact a.2)]
        rfl
  · rw [rpaJac]
    show npScale (npNorm (headVec h x - anchor)) (headVec h x - anchor) >>= _ = _
    have : npNorm (headVec h x - anchor) = 0 := by rw [he, sub_self]; simp [npNorm]
    rw [npScale, if_pos this]
    rfl

/-- C64: the covariances: a matrix is returned as given, a number times the identity needs the position (velocity) of the
state, which `SO3State` does not have. -/
theorem C64_covariance :
    (∀ {S κ α : Type} {n : ℕ} (P : PoseOps S κ α n) (R : Mat n n) x, covByPos P (.mat R) x = .ok R ∧ covByVel P (.mat R) x = .ok R) ∧
    (∀ {S κ α : Type} {n : ℕ} (P : PoseOps S κ α n) (r : ℝ) x p, P.pos x = .ok p → covByPos P (.scalar r) x = .ok (r • 1)) ∧
    (∀ {S κ α : Type} {n : ℕ} (P : PoseOps S κ α n) (r : ℝ) x v, P.vel x = .ok v → covByVel P (.scalar r) x = .ok (r • 1)) ∧
    ∀ (r : ℝ) x, covByPos so3Ops (.scalar r) x = .error .notImplemented := by
  refine ⟨fun P R x => ⟨rfl, rfl⟩, fun P r x p h => ?_, fun P r x v h => ?_, fun r x => rfl⟩
  · simp only [covByPos, h]; rfl
  · simp only [covByVel, h]; rfl

/-- A pose for the examples. -/
def pose1 (d : Dir) : GSt (Fin 3 ⊕ Fin 1) := ⟨mkPose 1 ![1, 2, 3], d, none⟩

theorem pose1_mem (d : Dir) : IsSE3 (pose1 d).value := ⟨1, ![1, 2, 3], isRot_one, rfl⟩

/-- Non-vacuity: a pose away from an anchor, and one at an anchor. -/
example : (∃ x : GSt (Fin 3 ⊕ Fin 1), IsSE3 x.value ∧ ¬ IsAtAnchor se3Ops ![0, 0, 0] ![1, 0, 0] x) ∧
    ∃ x : GSt (Fin 3 ⊕ Fin 1), IsSE3 x.value ∧ IsAtAnchor se3Ops ![1, 2, 3] ![0, 0, 0] x := by
  have hp : Pose.pos (pose1 .left).value = ![1, 2, 3] := rfl
  have hr : Pose.rot (pose1 .left).value = 1 := rfl
  refine ⟨⟨pose1 .left, pose1_mem _, ?_⟩, pose1 .left, pose1_mem _, ![1, 2, 3], by rfl, ?_⟩
  · rintro ⟨r, hr', e⟩
    have h' : se3Ops.pos (pose1 .left) = .ok ![1, 2, 3] := rfl
    rw [h'] at hr'
    injection hr' with hr'
    subst hr'
    have e0 := congrFun e 0
    have : se3Ops.att (pose1 .left) = 1 := rfl
    rw [this, one_mulVec] at e0
    norm_num at e0
  · have : se3Ops.att (pose1 .left) = 1 := rfl
    rw [this, one_mulVec]
    funext i
    fin_cases i <;> simp

end Verif
