import Verif.Model.Lie
import Verif.Props.VanLoan
import Mathlib.Tactic.FinCases

/-! Helper lemmas about `Verif.Model.Lie`. -/

namespace Verif

open Matrix NormedSpace

set_option linter.unusedVariables false
set_option linter.unusedSectionVars false

theorem skew_transpose (a : Vec 3) : (skew a)ᵀ = -skew a := by
  ext i j; fin_cases i <;> fin_cases j <;> simp [skew]

theorem skew_smul (c : ℝ) (a : Vec 3) : skew (c • a) = c • skew a := by
  ext i j; fin_cases i <;> fin_cases j <;> simp [skew]

theorem skew_add (a b : Vec 3) : skew (a + b) = skew a + skew b := by
  ext i j; fin_cases i <;> fin_cases j <;> simp [skew] <;> ring

theorem skew_neg (a : Vec 3) : skew (-a) = -skew a := by
  ext i j; fin_cases i <;> fin_cases j <;> simp [skew]

theorem skew_zero : skew 0 = 0 := by
  ext i j; fin_cases i <;> fin_cases j <;> simp [skew]

theorem vee_skew (a : Vec 3) : vee (skew a) = a := by
  ext i; fin_cases i <;> simp [vee, skew]

/-- `vee` inverts `wedge` on skew symmetric matrices. -/
theorem skew_vee {M : Mat 3 3} (h : Mᵀ = -M) : skew (vee M) = M := by
  have e : ∀ i j, M j i = -M i j := fun i j => congrFun (congrFun h i) j
  have d : ∀ i, M i i = 0 := fun i => by have := e i i; linarith
  ext i j
  fin_cases i <;> fin_cases j <;> simp [skew, vee]
  · exact (d 0).symm
  · have := e 1 0; linarith
  · exact (d 1).symm
  · have := e 2 1; linarith
  · have := e 0 2; linarith
  · exact (d 2).symm

theorem skew_mulVec (a b : Vec 3) : skew a *ᵥ b = ![a 1 * b 2 - a 2 * b 1, a 2 * b 0 - a 0 * b 2, a 0 * b 1 - a 1 * b 0] := by
  ext i; fin_cases i <;> simp [skew, mulVec, dotProduct, Fin.sum_univ_three] <;> ring

theorem skew_mulVec_self (a : Vec 3) : skew a *ᵥ a = 0 := by
  rw [skew_mulVec]; ext i; fin_cases i <;> simp <;> ring

theorem skew_mulVec_comm (a b : Vec 3) : skew a *ᵥ b = -(skew b *ᵥ a) := by
  rw [skew_mulVec, skew_mulVec]; ext i; fin_cases i <;> simp <;> ring

/-- Orthogonal 3 × 3 matrices. -/
def IsOrtho (C : Mat 3 3) : Prop := Cᵀ * C = 1

theorem IsOrtho.right {C : Mat 3 3} (h : IsOrtho C) : C * Cᵀ = 1 := mul_eq_one_comm.1 h

theorem IsOrtho.mul {C D : Mat 3 3} (h : IsOrtho C) (h' : IsOrtho D) : IsOrtho (C * D) := by
  unfold IsOrtho at *
  rw [transpose_mul, Matrix.mul_assoc, ← Matrix.mul_assoc Cᵀ, h, Matrix.one_mul, h']

theorem IsOrtho.transpose {C : Mat 3 3} (h : IsOrtho C) : IsOrtho Cᵀ := by
  unfold IsOrtho
  rw [transpose_transpose]
  exact h.right

theorem exp_skew_ortho (a : Vec 3) : IsOrtho (exp (skew a)) := by
  unfold IsOrtho
  rw [← Matrix.exp_transpose, skew_transpose, Matrix.exp_neg]
  exact nonsing_inv_mul _ ((isUnit_iff_isUnit_det _).1 (Matrix.isUnit_exp (skew a)))

/-- Specification: a pose, i.e. a matrix `[C r; 0 1]` with `C` orthogonal. -/
def IsPose (X : Pose) : Prop := ∃ C r, IsOrtho C ∧ X = mkPose C r

theorem mkPose_rot (C : Mat 3 3) (r : Vec 3) : (mkPose C r).rot = C := rfl

theorem mkPose_pos (C : Mat 3 3) (r : Vec 3) : (mkPose C r).pos = r := rfl

theorem mkPose_mul (C D : Mat 3 3) (r s : Vec 3) : mkPose C r * mkPose D s = mkPose (C * D) (C *ᵥ s + r) := by
  unfold mkPose
  rw [fromBlocks_multiply]
  congr 1
  · simp
  · ext i j
    have : j = 0 := Subsingleton.elim _ _
    subst this
    simp [Matrix.mul_apply, mulVec, dotProduct]
  · simp
  · simp

theorem mkPose_one : mkPose 1 0 = 1 := by
  unfold mkPose
  rw [← fromBlocks_one]
  congr 1

theorem IsPose.eq {X : Pose} (h : IsPose X) : X = mkPose X.rot X.pos := by
  obtain ⟨C, r, _, rfl⟩ := h
  rfl

theorem IsPose.ortho {X : Pose} (h : IsPose X) : IsOrtho X.rot := by
  obtain ⟨C, r, hC, rfl⟩ := h
  exact hC

theorem IsPose.mul {X Y : Pose} (h : IsPose X) (h' : IsPose Y) : IsPose (X * Y) := by
  obtain ⟨C, r, hC, rfl⟩ := h
  obtain ⟨D, s, hD, rfl⟩ := h'
  exact ⟨_, _, hC.mul hD, mkPose_mul C D r s⟩

theorem isPose_one : IsPose 1 := ⟨1, 0, by simp [IsOrtho], mkPose_one.symm⟩

theorem IsPose.inv {X : Pose} (h : IsPose X) : IsPose (se3Inv X) := ⟨_, _, h.ortho.transpose, rfl⟩

theorem se3Inv_mul {X : Pose} (h : IsPose X) : se3Inv X * X = 1 := by
  obtain ⟨C, r, hC, rfl⟩ := h
  unfold se3Inv
  rw [mkPose_rot, mkPose_pos, mkPose_mul, hC, ← mkPose_one]
  congr 1
  rw [add_neg_cancel]

theorem mul_se3Inv {X : Pose} (h : IsPose X) : X * se3Inv X = 1 := mul_eq_one_comm.1 (se3Inv_mul h)

theorem se3Wedge_smul (c : ℝ) (ξ : Vec 6) : se3Wedge (c • ξ) = c • se3Wedge ξ := by
  unfold se3Wedge
  rw [fromBlocks_smul, smul_zero, smul_zero, ← skew_smul]
  have h1 : twRot (c • ξ) = c • twRot ξ := by ext i; fin_cases i <;> simp [twRot]
  have h2 : twPos (c • ξ) = c • twPos ξ := by ext i; fin_cases i <;> simp [twPos]
  rw [h1, h2]
  rfl

theorem se3Wedge_zero : se3Wedge 0 = 0 := by
  have := se3Wedge_smul 0 0
  rwa [zero_smul, zero_smul] at this

theorem se3Exp_isPose (ξ : Vec 6) : IsPose (se3Exp ξ) := by
  unfold se3Exp se3Wedge
  obtain ⟨B', h⟩ := exp_tri (skew (twRot ξ)) (.of fun i _ => twPos ξ i) (0 : Matrix (Fin 1) (Fin 1) ℝ)
  rw [h, exp_zero]
  refine ⟨exp (skew (twRot ξ)), fun i => B' i 0, exp_skew_ortho _, ?_⟩
  unfold mkPose
  congr 1
  ext i j
  have : j = 0 := Subsingleton.elim _ _
  subst this
  rfl

theorem se3Exp_zero : se3Exp 0 = 1 := by
  unfold se3Exp
  rw [se3Wedge_zero, exp_zero]

end Verif
