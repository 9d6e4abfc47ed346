import Mathlib.LinearAlgebra.Matrix.PosDef
import Mathlib.LinearAlgebra.Matrix.SchurComplement
import Mathlib.Data.Real.Star
import Mathlib.Tactic.NoncommRing
import Mathlib.Tactic.Abel
import Verif.Model.Basic

/-! Linear algebra helper lemmas (not property statements). -/

set_option linter.unusedSectionVars false
set_option linter.unusedVariables false

namespace Verif

open Matrix

section
variable {m n k : Type*} [Fintype m] [Fintype n] [Fintype k] [DecidableEq m] [DecidableEq n]

theorem psd_symm {P : Matrix n n ℝ} (h : P.PosSemidef) : Pᵀ = P := by
  simpa [conjTranspose_eq_transpose_of_trivial] using h.isHermitian.eq

theorem psd_conj {P : Matrix n n ℝ} (h : P.PosSemidef) (A : Matrix m n ℝ) :
    (A * P * Aᵀ).PosSemidef := by
  simpa [conjTranspose_eq_transpose_of_trivial] using h.mul_mul_conjTranspose_same A

theorem psd_add {P Q : Matrix n n ℝ} (h : P.PosSemidef) (h' : Q.PosSemidef) :
    (P + Q).PosSemidef := h.add h'

theorem psd_dot {P : Matrix n n ℝ} (h : P.PosSemidef) (v : n → ℝ) : 0 ≤ v ⬝ᵥ P *ᵥ v := by
  simpa using h.dotProduct_mulVec_nonneg v

theorem pd_dot {P : Matrix n n ℝ} (h : P.PosDef) {v : n → ℝ} (hv : v ≠ 0) :
    0 < v ⬝ᵥ P *ᵥ v := by
  simpa using h.dotProduct_mulVec_pos hv

theorem psd_of_dot {P : Matrix n n ℝ} (hs : Pᵀ = P) (h : ∀ v, 0 ≤ v ⬝ᵥ P *ᵥ v) :
    P.PosSemidef := by
  apply PosSemidef.of_dotProduct_mulVec_nonneg
  · simpa [IsHermitian, conjTranspose_eq_transpose_of_trivial] using hs
  · simpa using h

theorem pd_of_dot {P : Matrix n n ℝ} (hs : Pᵀ = P) (h : ∀ v, v ≠ 0 → 0 < v ⬝ᵥ P *ᵥ v) :
    P.PosDef := by
  apply PosDef.of_dotProduct_mulVec_pos
  · simpa [IsHermitian, conjTranspose_eq_transpose_of_trivial] using hs
  · intro v hv; simpa using h v hv

theorem pd_det {P : Matrix n n ℝ} (h : P.PosDef) : P.det ≠ 0 := by
  have := h.isUnit
  exact ((Matrix.isUnit_iff_isUnit_det _).1 this).ne_zero

theorem unit_of_det {P : Matrix n n ℝ} (h : P.det ≠ 0) : IsUnit P.det := isUnit_iff_ne_zero.2 h

theorem psd_unit_pd {P : Matrix n n ℝ} (h : P.PosSemidef) (hd : P.det ≠ 0) : P.PosDef := by
  apply pd_of_dot (psd_symm h)
  intro v hv
  rcases (psd_dot h v).lt_or_eq with h1 | h1
  · exact h1
  · exfalso
    -- 0 = vᵀPv forces Pv = 0
    have key : P *ᵥ v = 0 := by
      by_contra hne
      -- consider (v + t w) with w = P v
      set w := P *ᵥ v with hw
      have hww : 0 < w ⬝ᵥ w := by
        have h0 : 0 ≤ w ⬝ᵥ w := by
          simpa [dotProduct] using Finset.sum_nonneg (fun i _ => mul_self_nonneg (w i))
        rcases h0.lt_or_eq with h | h
        · exact h
        · exact absurd (dotProduct_self_eq_zero.1 h.symm) hne
      have hsym : v ⬝ᵥ P *ᵥ w = w ⬝ᵥ w := by
        rw [dotProduct_mulVec, ← mulVec_transpose, psd_symm h]
      have hexp : ∀ t : ℝ, (v + t • w) ⬝ᵥ P *ᵥ (v + t • w)
          = 2 * t * (w ⬝ᵥ w) + t * t * (w ⬝ᵥ P *ᵥ w) := by
        intro t
        simp only [mulVec_add, mulVec_smul, dotProduct_add, add_dotProduct, smul_dotProduct,
          dotProduct_smul, smul_eq_mul, hsym, ← hw]
        have : v ⬝ᵥ w = 0 := by rw [hw]; exact h1.symm
        rw [this]; ring
      set c := w ⬝ᵥ P *ᵥ w
      have hc : 0 ≤ c := psd_dot h w
      set a := w ⬝ᵥ w
      have := psd_dot h (v + (-(a / (c + 1))) • w)
      rw [hexp] at this
      have hc1 : 0 < c + 1 := by linarith
      have h2 : 2 * -(a / (c + 1)) * a + -(a / (c + 1)) * -(a / (c + 1)) * c
          = -(a * a * (c + 2)) / ((c + 1) * (c + 1)) := by
        field_simp; ring
      rw [h2] at this
      have h3 : -(a * a * (c + 2)) / ((c + 1) * (c + 1)) < 0 := by
        apply div_neg_of_neg_of_pos
        · have : 0 < a * a * (c + 2) := by positivity
          linarith
        · positivity
      linarith
    have : v = 0 := by
      have h2 : P⁻¹ *ᵥ (P *ᵥ v) = v := by
        rw [mulVec_mulVec, nonsing_inv_mul _ (unit_of_det hd), one_mulVec]
      rw [← h2, key, mulVec_zero]
    exact hv this

end

theorem symmetrize_eq {n : ℕ} {P : Mat n n} (h : Pᵀ = P) : symmetrize P = P := by
  unfold symmetrize
  rw [h, ← two_smul ℝ P, smul_smul]; norm_num

theorem symmetrize_transpose {n : ℕ} (P : Mat n n) : (symmetrize P)ᵀ = symmetrize P := by
  unfold symmetrize
  rw [transpose_smul, transpose_add, transpose_transpose, add_comm]

theorem solve_ok {m : ℕ} {k : Type} {A : Mat m m} (h : A.det ≠ 0) (B : Matrix (Fin m) k ℝ) :
    solve A B = .ok (A⁻¹ * B) := by
  unfold solve; rw [if_neg h]

theorem solve_eq_ok {m : ℕ} {k : Type} {A : Mat m m} {B X : Matrix (Fin m) k ℝ}
    (h : solve A B = .ok X) : A.det ≠ 0 ∧ X = A⁻¹ * B := by
  unfold solve at h
  split at h
  · cases h
  · rename_i hd
    exact ⟨hd, (Except.ok.inj h).symm⟩

/-- The Kalman gain as computed by `solve(S.T, (P G.T).T).T`. -/
theorem gain_eq {m n : ℕ} {S : Mat m m} {B : Mat n m} {Kt : Mat m n}
    (h : solve Sᵀ Bᵀ = .ok Kt) : S.det ≠ 0 ∧ Ktᵀ = B * S⁻¹ := by
  obtain ⟨h1, h2⟩ := solve_eq_ok h
  rw [det_transpose] at h1
  refine ⟨h1, ?_⟩
  rw [h2, transpose_mul, transpose_transpose, ← transpose_nonsing_inv, transpose_transpose]

section Kalman
variable {m n : Type*} [Fintype m] [Fintype n] [DecidableEq m] [DecidableEq n]

/-- Joseph form. -/
theorem joseph (P : Matrix n n ℝ) (G : Matrix m n ℝ) (R : Matrix m m ℝ) (hP : Pᵀ = P)
    (K : Matrix n m ℝ) (hK : K * (G * P * Gᵀ + R) = P * Gᵀ) :
    (1 - K * G) * P = (1 - K * G) * P * (1 - K * G)ᵀ + K * R * Kᵀ := by
  have hT : (1 - K * G)ᵀ = 1 - Gᵀ * Kᵀ := by
    rw [transpose_sub, transpose_one, transpose_mul]
  rw [hT]
  have h2 : K * (G * P * Gᵀ) * Kᵀ + K * R * Kᵀ = P * Gᵀ * Kᵀ := by
    rw [← hK]; simp [Matrix.mul_add, Matrix.add_mul]
  simp only [Matrix.sub_mul, Matrix.mul_sub, Matrix.one_mul, Matrix.mul_one]
  have h3 : K * R * Kᵀ = P * Gᵀ * Kᵀ - K * (G * P * Gᵀ) * Kᵀ := by rw [← h2]; abel
  rw [h3]
  simp only [Matrix.mul_assoc]
  abel

theorem kalman_psd {P : Matrix n n ℝ} (hP : P.PosSemidef) (G : Matrix m n ℝ) {R : Matrix m m ℝ}
    (hR : R.PosSemidef) (hS : (G * P * Gᵀ + R).det ≠ 0) :
    ((1 - P * Gᵀ * (G * P * Gᵀ + R)⁻¹ * G) * P).PosSemidef := by
  have hK : P * Gᵀ * (G * P * Gᵀ + R)⁻¹ * (G * P * Gᵀ + R) = P * Gᵀ := by
    rw [Matrix.mul_assoc, nonsing_inv_mul _ (unit_of_det hS), Matrix.mul_one]
  rw [joseph P G R (psd_symm hP) _ hK]
  exact psd_add (psd_conj hP _) (psd_conj hR _)

theorem kalman_decrease {P : Matrix n n ℝ} (hP : P.PosSemidef) (G : Matrix m n ℝ)
    {R : Matrix m m ℝ} (hR : R.PosSemidef) :
    (P - (1 - P * Gᵀ * (G * P * Gᵀ + R)⁻¹ * G) * P).PosSemidef := by
  have hS : (G * P * Gᵀ + R).PosSemidef := psd_add (psd_conj hP _) hR
  have h := psd_conj hS.inv (P * Gᵀ)
  have e : P * Gᵀ * (G * P * Gᵀ + R)⁻¹ * (P * Gᵀ)ᵀ
      = P - (1 - P * Gᵀ * (G * P * Gᵀ + R)⁻¹ * G) * P := by
    rw [transpose_mul, transpose_transpose, psd_symm hP, Matrix.sub_mul, Matrix.one_mul]
    simp only [Matrix.mul_assoc]; abel
  rwa [e] at h

end Kalman

end Verif
