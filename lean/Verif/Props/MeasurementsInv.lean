import Verif.Props.Measurements
import Verif.Props.Ekf

/-! C64, C83: invariant innovations. -/

namespace Verif

open Matrix

set_option linter.unusedVariables false
set_option linter.unusedSectionVars false

/-- Specification: no nonzero vector is annihilated by all skew symmetric matrices of the group. -/
def AttGroup.Faithful {α : Type} {n : ℕ} (A : AttGroup α n) : Prop := ∀ e : Vec n, (∀ a, A.wedge a *ᵥ e = 0) → e = 0

theorem so2_faithful : so2Att.Faithful := by
  intro e h
  have h1 := h fun _ => 1
  funext i
  fin_cases i
  · have := congrFun h1 1
    simpa [so2Att, skew2, Matrix.mulVec, dotProduct, Fin.sum_univ_two] using this
  · have := congrFun h1 0
    simpa [so2Att, skew2, Matrix.mulVec, dotProduct, Fin.sum_univ_two] using this

theorem so3_faithful : so3Att.Faithful := by
  intro e h
  have h1 := h ![1, 0, 0]
  have h2 := h ![0, 1, 0]
  funext i
  fin_cases i
  · have := congrFun h2 2
    simpa [so3Att, skew, Matrix.mulVec, dotProduct, Fin.sum_univ_three] using this
  · have := congrFun h1 2
    simpa [so3Att, skew, Matrix.mulVec, dotProduct, Fin.sum_univ_three] using this
  · have := congrFun h1 1
    simpa [so3Att, skew, Matrix.mulVec, dotProduct, Fin.sum_univ_three] using this

section

variable {S κ α : Type} [Fintype κ] [DecidableEq κ] [Fintype α] {n : ℕ} {A : AttGroup α n} {P : PoseOps S κ α n} {mem : S → Prop}

theorem invMat_ortho (d : Dir) {C : Mat n n} (h : Cᵀ * C = 1) : (invMat d C)ᵀ * invMat d C = 1 := by
  cases d
  · exact h
  · show Cᵀᵀ * Cᵀ = 1
    rw [transpose_transpose]
    exact mul_eq_one_comm.1 h

/-- The rotation in front of the innovation has a derivative, which annihilates only zero. -/
theorem invMat_hasMD (hA : A.Laws) (hF : A.Faithful) (L : AttLaws A P mem) {x : S} (h : mem x) (d : Dir) :
    ∃ W : (κ → ℝ) → Mat n n, HasMD (fun ξ => invMat d (P.att (P.plus x ξ))) W ∧ ∀ e : Vec n, (∀ ξ, W ξ *ᵥ e = 0) → e = 0 := by
  have hO := L.ortho x h
  have hO' : P.att x * (P.att x)ᵀ = 1 := mul_eq_one_comm.1 hO
  have inj : ∀ v : Vec n, P.att x *ᵥ v = 0 → v = 0 := by
    intro v hv
    have : (P.att x)ᵀ *ᵥ (P.att x *ᵥ v) = 0 := by rw [hv, mulVec_zero]
    rwa [mulVec_mulVec, hO, one_mulVec] at this
  have inj' : ∀ v : Vec n, (P.att x)ᵀ *ᵥ v = 0 → v = 0 := by
    intro v hv
    have : P.att x *ᵥ ((P.att x)ᵀ *ᵥ v) = 0 := by rw [hv, mulVec_zero]
    rwa [mulVec_mulVec, hO', one_mulVec] at this
  have neg : ∀ (a : α → ℝ) (v : Vec n), (A.wedge a)ᵀ *ᵥ v = 0 → A.wedge a *ᵥ v = 0 := by
    intro a v hv
    rw [hA.skew, neg_mulVec, neg_eq_zero] at hv
    exact hv
  cases hd : P.dir x <;> cases d
  · refine ⟨_, L.att_right x h hd, fun e he => hF e fun a => ?_⟩
    obtain ⟨ξ, rfl⟩ := L.surj a
    have := he ξ
    rw [← mulVec_mulVec] at this
    exact inj _ this
  · refine ⟨_, (L.att_right x h hd).transpose, fun e he => inj' e (hF _ fun a => ?_)⟩
    obtain ⟨ξ, rfl⟩ := L.surj a
    have := he ξ
    rw [transpose_mul, ← mulVec_mulVec] at this
    exact neg _ _ this
  · refine ⟨_, L.att_left x h hd, fun e he => inj e (hF _ fun a => ?_)⟩
    obtain ⟨ξ, rfl⟩ := L.surj a
    have := he ξ
    rwa [← mulVec_mulVec] at this
  · refine ⟨_, (L.att_left x h hd).transpose, fun e he => hF e fun a => ?_⟩
    obtain ⟨ξ, rfl⟩ := L.surj a
    have := he ξ
    rw [transpose_mul, ← mulVec_mulVec] at this
    exact neg _ _ (inj' _ this)

/-- The Jacobian of an invariant innovation is its derivative exactly when the innovation is zero. -/
theorem inv_exact_iff (hA : A.Laws) (hF : A.Faithful) (L : AttLaws A P mem) (M : VMeas S κ n) {x : S} (h : mem x)
    (hM : JacExact P.plus M.evaluate M.jacobian x) (hx : M.evaluate (P.plus x 0) = M.evaluate x) (y : Vec n)
    {direction : String} {d : Dir} (hdir : invDir direction (P.dir x) = .ok d) :
    JacExact P.plus (invEval P M y direction) (invJac P M direction) x ↔ M.evaluate x = .ok y := by
  obtain ⟨yh, G, hy, hG, hD⟩ := hM
  obtain ⟨W, hW, hWinj⟩ := invMat_hasMD hA hF L h d
  have hz : invMat d (P.att (P.plus x 0)) = invMat d (P.att x) := by rw [L.att_zero]
  have hev : ∀ ξ, invEval P M y direction (P.plus x ξ) = .ok (invMat d (P.att (P.plus x ξ)) *ᵥ (yh ξ - y)) := by
    intro ξ
    rw [invEval, hy, L.dir_plus, hdir]
    rfl
  have hjac : invJac P M direction x = .ok (invMat d (P.att x) * G) := by
    rw [invJac, hG, hdir]
    rfl
  have hV := hW.mulVec (hD.hasVD.sub (HasVD.const y))
  have e0 : M.evaluate x = .ok (yh 0) := hx.symm.trans (hy 0)
  have inj : ∀ v : Vec n, invMat d (P.att x) *ᵥ v = 0 → v = 0 := by
    intro v hv
    have : (invMat d (P.att x))ᵀ *ᵥ (invMat d (P.att x) *ᵥ v) = 0 := by rw [hv, mulVec_zero]
    rwa [mulVec_mulVec, invMat_ortho d (L.ortho x h), one_mulVec] at this
  constructor
  · rintro ⟨z, J, hz', hJ, hJD⟩
    have ez : z = fun ξ => invMat d (P.att (P.plus x ξ)) *ᵥ (yh ξ - y) := by
      funext ξ
      have := (hz' ξ).symm.trans (hev ξ)
      injection this
    have eJ : J = invMat d (P.att x) * G := by
      have := hJ.symm.trans hjac
      injection this
    subst eJ ez
    have hu : ∀ ξ i, ((invMat d (P.att x) * G) *ᵥ ξ) i = (W ξ *ᵥ (yh 0 - y) + invMat d (P.att (P.plus x 0)) *ᵥ (G *ᵥ ξ - 0)) i := by
      intro ξ i
      obtain ⟨f1, h1, e1⟩ := hJD.hasVD i
      obtain ⟨f2, h2, e2⟩ := hV i
      exact (e1 ξ).symm.trans ((congrArg (fun f => f ξ) (h1.unique h2)).trans (e2 ξ))
    have hw : ∀ ξ, W ξ *ᵥ (yh 0 - y) = 0 := by
      intro ξ
      funext i
      have := hu ξ i
      rw [hz, sub_zero, ← mulVec_mulVec, Pi.add_apply] at this
      exact (right_eq_add.1 this)
    have : yh 0 - y = 0 := hWinj _ hw
    rw [e0, sub_eq_zero.1 this]
  · intro he
    have : yh 0 = y := by
      have := e0.symm.trans he
      injection this
    refine ⟨_, _, hev, hjac, hV.hasJac fun ξ => ?_⟩
    rw [hz, this, sub_self, mulVec_zero, zero_add, sub_zero, mulVec_mulVec]

end

/-! ### C64: the innovations of the models above -/

/-- `PointRelativePosition` as a model inside an invariant innovation. -/
def prpModel {S κ α : Type} [Fintype α] {n : ℕ} (A : AttGroup α n) (P : PoseOps S κ α n) (p : Vec n) (R : Mat n n) : VMeas S κ n :=
  ⟨prpEval P p, prpJac A P p, fun _ => .ok R⟩

/-- `Gravitometer`, `Magnetometer` as models inside an invariant innovation. -/
def vdModel {S κ α : Type} [Fintype α] {n : ℕ} (A : AttGroup α n) (P : PoseOps S κ α n) (g : Vec n) (R : Mat n n) : VMeas S κ n :=
  ⟨vdEval P g, vdJac A P g, fun _ => .ok R⟩

/-- C64: the Jacobian that `InvariantMeasurement` computes by the "chain rule" is the derivative of its innovation exactly at the
states that predict the measurement; elsewhere it leaves out the derivative of the attitude in front. -/
theorem C64_invariant_innovation (direction : String) (y : Vec 3) :
    (∀ (g : Vec 3) (R : Mat 3 3) (x : GSt (Fin 3)) (d : Dir), IsRot x.value → invDir direction x.dir = .ok d →
      (JacExact so3Ops.plus (invEval so3Ops (vdModel so3Att so3Ops g R) y direction) (invJac so3Ops (vdModel so3Att so3Ops g R) direction) x ↔
        vdEval so3Ops g x = .ok y)) ∧
    (∀ (p : Vec 3) (R : Mat 3 3) (x : GSt (Fin 3 ⊕ Fin 1)) (d : Dir), IsSE3 x.value → invDir direction x.dir = .ok d →
      (JacExact se3Ops.plus (invEval se3Ops (prpModel so3Att se3Ops p R) y direction) (invJac se3Ops (prpModel so3Att se3Ops p R) direction) x ↔
        prpEval se3Ops p x = .ok y)) ∧
    (∀ (p : Vec 3) (R : Mat 3 3) (x : GSt (Fin 3 ⊕ Fin 2)) (d : Dir), IsSE23 x.value → invDir direction x.dir = .ok d →
      (JacExact se23Ops.plus (invEval se23Ops (prpModel so3Att se23Ops p R) y direction) (invJac se23Ops (prpModel so3Att se23Ops p R) direction) x ↔
        prpEval se23Ops p x = .ok y)) ∧
    ∀ (p : Vec 3) (R : Mat 3 3) (x : ImuSt) (d : Dir), IsSE23 x.pose → invDir direction x.dir = .ok d →
      (JacExact imuOps.plus (invEval imuOps (prpModel so3Att imuOps p R) y direction) (invJac imuOps (prpModel so3Att imuOps p R) direction) x ↔
        prpEval imuOps p x = .ok y) := by
  refine ⟨fun g R x d h hd => ?_, fun p R x d h hd => ?_, fun p R x d h hd => ?_, fun p R x d h hd => ?_⟩
  · refine inv_exact_iff so3Att_laws so3_faithful so3State (vdModel so3Att so3Ops g R) h (vd_exact so3Att_laws so3State g h) ?_ y hd
    show Except.ok ((so3Ops.att (so3Ops.plus x 0))ᵀ *ᵥ g) = _
    rw [so3State.att_zero]; rfl
  · refine inv_exact_iff so3Att_laws so3_faithful se3State.toAttLaws (prpModel so3Att se3Ops p R) h (prp_exact so3Att_laws se3State p h) ?_ y hd
    show Except.ok ((se3Ops.att (se3Ops.plus x 0))ᵀ *ᵥ (p - se3State.r (se3Ops.plus x 0))) = _
    rw [se3State.att_zero, se3State.pos_zero]; rfl
  · refine inv_exact_iff so3Att_laws so3_faithful se23Att (prpModel so3Att se23Ops p R) h (prp_exact so3Att_laws se23Pos p h) ?_ y hd
    show Except.ok ((se23Ops.att (se23Ops.plus x 0))ᵀ *ᵥ (p - se23Pos.r (se23Ops.plus x 0))) = _
    rw [se23Att.att_zero, se23Pos.pos_zero]; rfl
  · refine inv_exact_iff so3Att_laws so3_faithful imuAtt (prpModel so3Att imuOps p R) h (prp_exact so3Att_laws imuPos p h) ?_ y hd
    show Except.ok ((imuOps.att (imuOps.plus x 0))ᵀ *ᵥ (p - imuPos.r (imuOps.plus x 0))) = _
    rw [imuAtt.att_zero, imuPos.pos_zero]; rfl

/-- C64: which innovation is formed: `"left"` and `"right"` as given, `"auto"` the opposite of the state's, anything else is a
`ValueError` in all three methods. -/
theorem C64_invariant_direction :
    (∀ d, invDir "left" d = .ok .left ∧ invDir "right" d = .ok .right) ∧ invDir "auto" .left = .ok .right ∧
    invDir "auto" .right = .ok .left ∧
    ∀ s, s ≠ "left" → s ≠ "right" → s ≠ "auto" → ∀ {S κ α : Type} {n : ℕ} (P : PoseOps S κ α n) (M : VMeas S κ n) (y : Vec n) (x : S)
      (v : Vec n) (G : Matrix (Fin n) κ ℝ) (R : Mat n n), M.evaluate x = .ok v → M.jacobian x = .ok G → M.covariance x = .ok R →
      invEval P M y s x = .error .valueError ∧ invJac P M s x = .error .valueError ∧ invCov P M s x = .error .valueError := by
  refine ⟨fun d => ⟨rfl, rfl⟩, rfl, rfl, fun s h1 h2 h3 {S κ α n} P M y x v G R he hG hR => ?_⟩
  have hd : invDir s (P.dir x) = .error .valueError := by
    unfold invDir
    rw [if_neg h1, if_neg h2, if_neg h3]
  refine ⟨?_, ?_, ?_⟩
  · rw [invEval, he, hd]; rfl
  · rw [invJac, hG, hd]; rfl
  · rw [invCov, hR, hd]; rfl

section

variable {S κ : Type} [Fintype κ] [DecidableEq κ] {P : PoseOps S κ (Fin 3) 3} {mem : S → Prop}

/-- C64: on left-perturbed states the invariant innovation of `PointRelativePosition` is the one that
`InvariantPointRelativePosition` writes down directly, with the same Jacobian and covariance, and this Jacobian is the same at
all such states; on right-perturbed states the direct one is not implemented. -/
theorem invariant_prp (L : PosLaws so3Att P mem) (p y : Vec 3) (R : Mat 3 3) :
    (∀ x, mem x → P.dir x = .left →
      invEval P (prpModel so3Att P p R) y "auto" x = iprpEval P p y x ∧
      invJac P (prpModel so3Att P p R) "auto" x = iprpJac P p x ∧
      invCov P (prpModel so3Att P p R) "auto" x = .ok (iprpCov P R x)) ∧
    (∀ x x', mem x → mem x' → P.dir x = .left → P.dir x' = .left →
      invJac P (prpModel so3Att P p R) "auto" x = invJac P (prpModel so3Att P p R) "auto" x') ∧
    ∀ x, P.dir x = .right → iprpJac P p x = .error .notImplemented := by
  have key : ∀ x, mem x → P.dir x = .left → invJac P (prpModel so3Att P p R) "auto" x = iprpJac P p x := by
    intro x h hd
    have hO : P.att x * (P.att x)ᵀ = 1 := mul_eq_one_comm.1 (L.ortho x h)
    obtain ⟨J, hJ, eJ⟩ := L.blocks_pos (some (-(P.att x)ᵀ * so3Att.odot p)) (-(P.att x)ᵀ)
    obtain ⟨K, hK, eK⟩ := L.blocks_pos (some (skew p)) (-1)
    have h1 : prpJac so3Att P p x = .ok J := by simp only [prpJac, L.pos_eq, hd]; exact hJ
    have h2 : invJac P (prpModel so3Att P p R) "auto" x = .ok (P.att x * J) := by
      have : (prpModel so3Att P p R).jacobian x = .ok J := h1
      rw [invJac, this, hd]; rfl
    have h3 : iprpJac P p x = .ok K := by rw [iprpJac, hd]; exact hK
    rw [h2, h3]
    congr 1
    apply Matrix.toLin'.injective
    ext v i
    simp only [toLin'_apply', LinearMap.comp_apply, mulVecLin_apply, ← mulVec_mulVec, eJ, eK]
    simp only [Option.getD_some, mulVec_add, mulVec_mulVec, Matrix.neg_mul, Matrix.mul_neg, ← Matrix.mul_assoc, hO, Matrix.one_mul]
    simp [so3Att]
  refine ⟨fun x h hd => ⟨?_, key x h hd, ?_⟩, fun x x' h h' hd hd' => ?_, fun x hd => ?_⟩
  · have : (prpModel so3Att P p R).evaluate x = prpEval P p x := rfl
    rw [invEval, this, hd, iprpEval, prpEval, L.pos_eq]
    rfl
  · rw [invCov, hd]; rfl
  · rw [key x h hd, key x' h' hd', iprpJac, iprpJac, hd, hd']
  · rw [iprpJac, hd]

end

/-- C64: the same for the classes. -/
theorem C64_invariant_point_relative_position (p y : Vec 3) (R : Mat 3 3) :
    (∀ x, IsSE3 x.value → x.dir = .left →
      invEval se3Ops (prpModel so3Att se3Ops p R) y "auto" x = iprpEval se3Ops p y x ∧
      invJac se3Ops (prpModel so3Att se3Ops p R) "auto" x = iprpJac se3Ops p x ∧
      invCov se3Ops (prpModel so3Att se3Ops p R) "auto" x = .ok (iprpCov se3Ops R x)) ∧
    (∀ x x', IsSE3 x.value → IsSE3 x'.value → x.dir = .left → x'.dir = .left →
      invJac se3Ops (prpModel so3Att se3Ops p R) "auto" x = invJac se3Ops (prpModel so3Att se3Ops p R) "auto" x') ∧
    (∀ x, IsSE23 x.value → x.dir = .left →
      invEval se23Ops (prpModel so3Att se23Ops p R) y "auto" x = iprpEval se23Ops p y x ∧
      invJac se23Ops (prpModel so3Att se23Ops p R) "auto" x = iprpJac se23Ops p x ∧
      invCov se23Ops (prpModel so3Att se23Ops p R) "auto" x = .ok (iprpCov se23Ops R x)) ∧
    (∀ x, IsSE23 x.pose → x.dir = .left →
      invEval imuOps (prpModel so3Att imuOps p R) y "auto" x = iprpEval imuOps p y x ∧
      invJac imuOps (prpModel so3Att imuOps p R) "auto" x = iprpJac imuOps p x ∧
      invCov imuOps (prpModel so3Att imuOps p R) "auto" x = .ok (iprpCov imuOps R x)) ∧
    ∀ x, x.dir = .right → iprpJac se3Ops p x = .error .notImplemented :=
  ⟨(invariant_prp se3State p y R).1, (invariant_prp se3State p y R).2.1, (invariant_prp se23Pos p y R).1,
    (invariant_prp imuPos p y R).1, (invariant_prp se3State p y R).2.2⟩

/-! ### C83: what an EKF does with it -/

section

variable {V U : Type} {n : ℕ}

theorem det_conj {m : ℕ} {M S : Mat m m} (h : Mᵀ * M = 1) : (M * S * Mᵀ).det = S.det := by
  have hd : M.det * M.det = 1 := by
    have := congrArg det h
    rwa [det_mul, det_transpose, det_one] at this
  rw [det_mul, det_mul, det_transpose]
  linear_combination S.det * hd

theorem inv_conj {m : ℕ} {M S : Mat m m} (h : Mᵀ * M = 1) : (M * S * Mᵀ)⁻¹ = M * S⁻¹ * Mᵀ := by
  have h' : M * Mᵀ = 1 := mul_eq_one_comm.1 h
  have hM : M⁻¹ = Mᵀ := inv_eq_right_inv h'
  have hMt : Mᵀ⁻¹ = M := inv_eq_right_inv h
  rw [Matrix.mul_inv_rev, Matrix.mul_inv_rev, hM, hMt, Matrix.mul_assoc]

/-- The normalized innovation squared does not depend on the frame. -/
theorem checkOutlier_conj (chi : ℕ → ℝ) {m : ℕ} {M S : Mat m m} (h : Mᵀ * M = 1) (z : Vec m) :
    checkOutlier chi (M *ᵥ z) (M * S * Mᵀ) = checkOutlier chi z S := by
  have hc : col (M *ᵥ z) = M * col z := by
    ext i j
    simp [col, Matrix.mul_apply, Matrix.mulVec, dotProduct]
  unfold checkOutlier
  by_cases hd : S.det = 0
  · have hd' : (M * S * Mᵀ).det = 0 := by rw [det_conj h]; exact hd
    rw [solve, solve, if_pos hd, if_pos hd']
    rfl
  · have hd' : (M * S * Mᵀ).det ≠ 0 := by rw [det_conj h]; exact hd
    rw [solve, solve, if_neg hd, if_neg hd', inv_conj h, hc]
    have e : M * S⁻¹ * Mᵀ * (M * col z) = M * (S⁻¹ * col z) := by
      rw [← Matrix.mul_assoc, Matrix.mul_assoc (M * S⁻¹), h, Matrix.mul_one, Matrix.mul_assoc]
    rw [e]
    have e2 : ∑ i, (M *ᵥ z) i * (M * (S⁻¹ * col z)) i () = ∑ i, z i * (S⁻¹ * col z) i () := by
      have : ∀ i, (M * (S⁻¹ * col z)) i () = (M *ᵥ fun j => (S⁻¹ * col z) j ()) i := fun i => rfl
      simp only [this]
      show (M *ᵥ z) ⬝ᵥ (M *ᵥ fun j => (S⁻¹ * col z) j ()) = z ⬝ᵥ fun j => (S⁻¹ * col z) j ()
      rw [dotProduct_mulVec, vecMul_mulVec, h, vecMul_one]
    show Except.ok (decide (_ > _)) = Except.ok (decide (_ > _))
    rw [e2]

/-- The fusion of a measurement with innovation `z`. -/
noncomputable def fuseCore (e : EkfEnv V U n) (x : SWC V n) {m : ℕ} (z : Vec m) (G : Mat m n) (R : Mat m m) (reject : Bool) :
    Except Err (SWC V n) := do
  let S := G * x.cov * Gᵀ + R
  let outlier ← if reject then checkOutlier e.chi2ppf99 z S else Except.ok false
  if outlier then .ok x
  else
    let Kt ← solve Sᵀ (x.cov * Gᵀ)ᵀ
    .ok { state := e.plusSt x.state (Ktᵀ *ᵥ z), cov := symmetrize ((1 - Ktᵀ * G) * x.cov) }

theorem fuse_core (e : EkfEnv V U n) (x : SWC V n) (y : Meas V n) (reject : Bool) (yc : Vec y.m)
    (h : y.model.evaluate x.state = some yc) :
    (e.fuse x y none reject).map Prod.fst =
      fuseCore e x (fun i => y.value i - yc i : Vec y.m) (y.model.jacobian x.state) (y.model.covariance x.state) reject := by
  unfold EkfEnv.fuse fuseCore
  rw [h]
  simp only [Option.getD_none]
  cases reject with
  | false =>
    simp only [Bool.false_eq_true, if_false, bind, Except.bind]
    cases solve _ _ <;> rfl
  | true =>
    simp only [if_true, bind, Except.bind]
    cases checkOutlier _ _ _ with
    | error => rfl
    | ok b =>
      cases b
      · simp only [Bool.false_eq_true, if_false]
        cases solve _ _ <;> rfl
      · rfl

theorem fuseCore_conj (e : EkfEnv V U n) (x : SWC V n) {m : ℕ} {M : Mat m m} (hM : Mᵀ * M = 1) (z : Vec m) (G : Mat m n)
    (R : Mat m m) (reject : Bool) : fuseCore e x (M *ᵥ z) (M * G) (M * R * Mᵀ) reject = fuseCore e x z G R reject := by
  have hS : M * G * x.cov * (M * G)ᵀ + M * R * Mᵀ = M * (G * x.cov * Gᵀ + R) * Mᵀ := by
    rw [transpose_mul, Matrix.mul_add, Matrix.add_mul]
    simp only [Matrix.mul_assoc]
  unfold fuseCore
  rw [hS]
  simp only []
  rw [checkOutlier_conj e.chi2ppf99 hM]
  set S := G * x.cov * Gᵀ + R with hSd
  have hsol : (solve (M * S * Mᵀ)ᵀ (x.cov * (M * G)ᵀ)ᵀ : Except Err (Mat m n)) = (solve Sᵀ (x.cov * Gᵀ)ᵀ).map fun Kt : Mat m n => (M * Kt : Matrix (Fin m) (Fin n) ℝ) := by
    have ht : (M * S * Mᵀ)ᵀ = M * Sᵀ * Mᵀ := by
      rw [transpose_mul, transpose_mul, transpose_transpose, Matrix.mul_assoc]
    rw [ht]
    by_cases hd : Sᵀ.det = 0
    · rw [solve, solve, if_pos hd, if_pos (by rw [det_conj hM]; exact hd)]
      rfl
    · rw [solve, solve, if_neg hd, if_neg (by rw [det_conj hM]; exact hd), inv_conj hM]
      show Except.ok _ = Except.ok _
      congr 1
      simp only [transpose_mul, transpose_transpose]
      rw [Matrix.mul_assoc, Matrix.mul_assoc M G, ← Matrix.mul_assoc Mᵀ M, hM, Matrix.one_mul, Matrix.mul_assoc]
  rw [hsol]
  have hgain : ∀ Kt : Mat m n, (M * Kt)ᵀ *ᵥ (M *ᵥ z) = Ktᵀ *ᵥ z ∧ (M * Kt)ᵀ * (M * G) = Ktᵀ * G := by
    intro Kt
    rw [transpose_mul]
    constructor
    · rw [mulVec_mulVec, Matrix.mul_assoc, hM, Matrix.mul_one]
    · rw [Matrix.mul_assoc, ← Matrix.mul_assoc Mᵀ M, hM, Matrix.one_mul]
  cases reject with
  | false =>
    simp only [Bool.false_eq_true, if_false, bind, Except.bind]
    cases solve Sᵀ (x.cov * Gᵀ)ᵀ with
    | error => rfl
    | ok Kt => simp only [Except.map, (hgain Kt).1, (hgain Kt).2]
  | true =>
    simp only [if_true, bind, Except.bind]
    cases checkOutlier _ z S with
    | error => rfl
    | ok b =>
      cases b
      · simp only [Bool.false_eq_true, if_false]
        cases solve Sᵀ (x.cov * Gᵀ)ᵀ with
        | error => rfl
        | ok Kt => simp only [Except.map, (hgain Kt).1, (hgain Kt).2]
      · rfl

/-- C83: an `ExtendedKalmanFilter` does exactly the same with an `InvariantMeasurement` as with the measurement inside it: same
estimate, same covariance, same outlier decision, same exceptions; whichever direction is chosen. -/
theorem C83_invariant_ekf (e : EkfEnv V U n) (x : SWC V n) (y : Meas V n) (att : V → Mat y.m y.m) (dir : V → Dir)
    (direction : Option Dir) (u : Option (Inp U)) (reject : Option Bool) (hO : ∀ v, (att v)ᵀ * att v = 1)
    (hs : ∀ s, (y.model.evaluate s).isSome) :
    e.correct x (invMeas y att dir direction) u none reject = e.correct x y u none reject := by
  have ha : e.advance x (invMeas y att dir direction) u = e.advance x y u := rfl
  have hf : ∀ xp r, (e.fuse xp (invMeas y att dir direction) none r).map Prod.fst = (e.fuse xp y none r).map Prod.fst := by
    intro xp r
    obtain ⟨yc, hy⟩ := Option.isSome_iff_exists.1 (hs xp.state)
    set M := invMat (direction.getD (match dir xp.state.value with | .left => .right | .right => .left)) (att xp.state.value) with hMd
    have hM : Mᵀ * M = 1 := invMat_ortho _ (hO _)
    have h1 : (invMeas y att dir direction).model.evaluate xp.state = some (M *ᵥ (yc - y.value)) := by
      show (y.model.evaluate xp.state).map _ = _
      rw [hy]; rfl
    rw [fuse_core e xp y r yc hy, fuse_core e xp (invMeas y att dir direction) r _ h1]
    have hz : (fun i => (invMeas y att dir direction).value i - (M *ᵥ (yc - y.value)) i : Vec y.m) = M *ᵥ (y.value - yc) := by
      funext i
      show (0 : ℝ) - _ = _
      rw [zero_sub, ← neg_sub yc, mulVec_neg]; rfl
    have := fuseCore_conj e xp hM (y.value - yc) (y.model.jacobian xp.state) (y.model.covariance xp.state) r
    rw [← hz] at this
    exact this
  unfold EkfEnv.correct EkfEnv.correctD
  rw [ha]
  cases e.advance x y u with
  | error => rfl
  | ok xp => exact hf xp _

/-- Non-vacuity of C83: attitudes of rotation states, and a measurement of a fixed direction. -/
example : ∃ (y : Meas {R : Mat 3 3 // IsRot R} 3) (att : {R : Mat 3 3 // IsRot R} → Mat y.m y.m),
    (∀ v, (att v)ᵀ * att v = 1) ∧ (∀ s, (y.model.evaluate s).isSome) ∧ ∃ v, att v ≠ 1 := by
  let y : Meas {R : Mat 3 3 // IsRot R} 3 :=
    ⟨3, ![0, 1, 0], none, ⟨fun x => some (x.value.1ᵀ *ᵥ ![0, 1, 0]), fun x => skew (x.value.1ᵀ *ᵥ ![0, 1, 0]), fun _ => 1⟩⟩
  refine ⟨y, fun v => v.1, fun v => v.2.1, fun s => rfl, ⟨!![1, 0, 0; 0, -1, 0; 0, 0, -1], ?_, ?_⟩, ?_⟩
  · show _ * _ = _
    ext i j
    fin_cases i <;> fin_cases j <;> simp [Matrix.mul_apply, Fin.sum_univ_three]
  · simp [det_fin_three]
  · intro h
    have := congrFun₂ h (1 : Fin 3) (1 : Fin 3)
    simp at this
    norm_num at this

end

end Verif
