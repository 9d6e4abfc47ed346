import Verif.Lemmas.LinAlg
import Mathlib.Tactic.LinearCombination

/-! Information-form and push-through identities for the Kalman update. -/

set_option linter.unusedSectionVars false
set_option linter.unusedVariables false

namespace Verif

open Matrix

variable {m n p : Type*} [Fintype m] [Fintype n] [Fintype p] [DecidableEq m] [DecidableEq n]
  [DecidableEq p]

/-- gain -/
noncomputable def kGain (P : Matrix n n ℝ) (G : Matrix m n ℝ) (R : Matrix m m ℝ) : Matrix n m ℝ :=
  P * Gᵀ * (G * P * Gᵀ + R)⁻¹

/-- posterior covariance (before symmetrization) -/
noncomputable def kCov (P : Matrix n n ℝ) (G : Matrix m n ℝ) (R : Matrix m m ℝ) : Matrix n n ℝ :=
  (1 - kGain P G R * G) * P

theorem kGain_mul (P : Matrix n n ℝ) (G : Matrix m n ℝ) (R : Matrix m m ℝ)
    (hS : (G * P * Gᵀ + R).det ≠ 0) : kGain P G R * (G * P * Gᵀ + R) = P * Gᵀ := by
  unfold kGain
  rw [Matrix.mul_assoc, nonsing_inv_mul _ (unit_of_det hS), Matrix.mul_one]

theorem kCov_gain (P : Matrix n n ℝ) (G : Matrix m n ℝ) (R : Matrix m m ℝ)
    (hS : (G * P * Gᵀ + R).det ≠ 0) (hR : R.det ≠ 0) :
    kCov P G R * Gᵀ * R⁻¹ = kGain P G R := by
  have h := kGain_mul P G R hS
  have h1 : kCov P G R * Gᵀ = kGain P G R * R := by
    unfold kCov
    rw [Matrix.sub_mul, Matrix.one_mul, Matrix.sub_mul, ← h]
    simp only [Matrix.mul_add, Matrix.mul_assoc]
    abel
  rw [h1, Matrix.mul_assoc, mul_nonsing_inv _ (unit_of_det hR), Matrix.mul_one]

theorem kCov_push (P : Matrix n n ℝ) (G : Matrix m n ℝ) (R : Matrix m m ℝ)
    (hS : (G * P * Gᵀ + R).det ≠ 0) (hR : R.det ≠ 0) :
    kCov P G R * (1 + Gᵀ * R⁻¹ * G * P) = P := by
  have h := kCov_gain P G R hS hR
  have : kCov P G R * (Gᵀ * R⁻¹ * G * P) = kGain P G R * G * P := by
    rw [← h]; simp only [Matrix.mul_assoc]
  rw [Matrix.mul_add, this, Matrix.mul_one]
  unfold kCov
  rw [Matrix.sub_mul, Matrix.one_mul]
  abel

theorem info_det (P : Matrix n n ℝ) (G : Matrix m n ℝ) (R : Matrix m m ℝ)
    (hS : (G * P * Gᵀ + R).det ≠ 0) (hR : R.det ≠ 0) :
    (1 + Gᵀ * R⁻¹ * G * P).det ≠ 0 := by
  have e1 : Gᵀ * R⁻¹ * G * P = Gᵀ * (R⁻¹ * (G * P)) := by simp only [Matrix.mul_assoc]
  rw [e1, det_one_add_mul_comm]
  have e2 : 1 + R⁻¹ * (G * P) * Gᵀ = R⁻¹ * (G * P * Gᵀ + R) := by
    rw [Matrix.mul_add, nonsing_inv_mul _ (unit_of_det hR), add_comm]
    simp only [Matrix.mul_assoc]
  rw [e2, det_mul]
  refine mul_ne_zero ?_ hS
  rw [det_nonsing_inv, Ring.inverse_eq_inv']
  exact inv_ne_zero hR

theorem kCov_seq (P : Matrix n n ℝ) (G : Matrix m n ℝ) (R : Matrix m m ℝ)
    (H : Matrix p n ℝ) (T : Matrix p p ℝ)
    (hS : (G * P * Gᵀ + R).det ≠ 0) (hR : R.det ≠ 0)
    (hS' : (H * kCov P G R * Hᵀ + T).det ≠ 0) (hT : T.det ≠ 0) :
    kCov (kCov P G R) H T = P * (1 + (Gᵀ * R⁻¹ * G + Hᵀ * T⁻¹ * H) * P)⁻¹ ∧
      (1 + (Gᵀ * R⁻¹ * G + Hᵀ * T⁻¹ * H) * P).det ≠ 0 := by
  have h1 := kCov_push P G R hS hR
  have h2 := kCov_push (kCov P G R) H T hS' hT
  have d1 := info_det P G R hS hR
  have d2 := info_det (kCov P G R) H T hS' hT
  have e : (1 + Hᵀ * T⁻¹ * H * kCov P G R) * (1 + Gᵀ * R⁻¹ * G * P)
      = 1 + (Gᵀ * R⁻¹ * G + Hᵀ * T⁻¹ * H) * P := by
    rw [Matrix.add_mul 1, Matrix.one_mul, Matrix.mul_assoc _ (kCov P G R), h1, Matrix.add_mul]
    abel
  have hd : (1 + (Gᵀ * R⁻¹ * G + Hᵀ * T⁻¹ * H) * P).det ≠ 0 := by
    rw [← e, det_mul]; exact mul_ne_zero d2 d1
  refine ⟨?_, hd⟩
  have h3 : kCov (kCov P G R) H T * (1 + (Gᵀ * R⁻¹ * G + Hᵀ * T⁻¹ * H) * P) = P := by
    rw [← e, ← Matrix.mul_assoc, h2, h1]
  calc kCov (kCov P G R) H T
      = kCov (kCov P G R) H T * (1 + (Gᵀ * R⁻¹ * G + Hᵀ * T⁻¹ * H) * P)
          * (1 + (Gᵀ * R⁻¹ * G + Hᵀ * T⁻¹ * H) * P)⁻¹ := by
        rw [Matrix.mul_assoc, mul_nonsing_inv _ (unit_of_det hd), Matrix.mul_one]
    _ = _ := by rw [h3]

/-- Sequential mean update in symmetric form. -/
theorem kMean_seq (P : Matrix n n ℝ) (G : Matrix m n ℝ) (R : Matrix m m ℝ)
    (H : Matrix p n ℝ) (T : Matrix p p ℝ)
    (hS : (G * P * Gᵀ + R).det ≠ 0) (hR : R.det ≠ 0)
    (hS' : (H * kCov P G R * Hᵀ + T).det ≠ 0) (hT : T.det ≠ 0)
    (x : n → ℝ) (y : m → ℝ) (w : p → ℝ) :
    let x1 := x + kGain P G R *ᵥ (y - G *ᵥ x)
    x1 + kGain (kCov P G R) H T *ᵥ (w - H *ᵥ x1)
      = x + kCov (kCov P G R) H T *ᵥ (Gᵀ *ᵥ (R⁻¹ *ᵥ (y - G *ᵥ x)) + Hᵀ *ᵥ (T⁻¹ *ᵥ (w - H *ᵥ x))) := by
  intro x1
  have g1 := kCov_gain P G R hS hR
  have g2 := kCov_gain (kCov P G R) H T hS' hT
  have h2 := kCov_push (kCov P G R) H T hS' hT
  have h2' : kCov P G R - kCov (kCov P G R) H T * (Hᵀ * T⁻¹ * H * kCov P G R)
      = kCov (kCov P G R) H T := by
    rw [Matrix.mul_add, Matrix.mul_one] at h2
    nth_rewrite 1 [← h2]
    abel
  have e1 : x1 = x + kCov P G R *ᵥ (Gᵀ *ᵥ (R⁻¹ *ᵥ (y - G *ᵥ x))) := by
    simp only [x1]
    rw [mulVec_mulVec, mulVec_mulVec, g1]
  set v := Gᵀ *ᵥ (R⁻¹ *ᵥ (y - G *ᵥ x)) with hv
  have e2 : kGain (kCov P G R) H T *ᵥ (w - H *ᵥ x1)
      = kCov (kCov P G R) H T *ᵥ (Hᵀ *ᵥ (T⁻¹ *ᵥ (w - H *ᵥ x)))
        - (kCov (kCov P G R) H T * (Hᵀ * T⁻¹ * H * kCov P G R)) *ᵥ v := by
    rw [e1, mulVec_add, ← sub_sub, mulVec_sub, ← g2]
    simp only [mulVec_mulVec, Matrix.mul_assoc]
  rw [e2, e1]
  have e3 : kCov P G R *ᵥ v = kCov (kCov P G R) H T *ᵥ v
      + (kCov (kCov P G R) H T * (Hᵀ * T⁻¹ * H * kCov P G R)) *ᵥ v := by
    rw [← add_mulVec]
    congr 1
    exact sub_eq_iff_eq_add.1 h2'
  rw [e3, mulVec_add]
  abel

theorem pd_add_psd {P Q : Matrix n n ℝ} (h : P.PosDef) (h' : Q.PosSemidef) : (P + Q).PosDef :=
  h.add_posSemidef h'

theorem innov_pd {P : Matrix n n ℝ} (hP : P.PosSemidef) (G : Matrix m n ℝ) {R : Matrix m m ℝ}
    (hR : R.PosDef) : (G * P * Gᵀ + R).PosDef := by
  rw [add_comm]; exact pd_add_psd hR (psd_conj hP G)

theorem kCov_psd {P : Matrix n n ℝ} (hP : P.PosSemidef) (G : Matrix m n ℝ) {R : Matrix m m ℝ}
    (hR : R.PosDef) : (kCov P G R).PosSemidef :=
  kalman_psd hP G hR.posSemidef (pd_det (innov_pd hP G hR))

/-- Information form. -/
theorem kCov_info {P : Matrix n n ℝ} (hP : P.PosDef) (G : Matrix m n ℝ) {R : Matrix m m ℝ}
    (hR : R.PosDef) : kCov P G R = (P⁻¹ + Gᵀ * R⁻¹ * G)⁻¹ := by
  have hS := pd_det (innov_pd hP.posSemidef G hR)
  have h := kCov_push P G R hS (pd_det hR)
  have : kCov P G R * (P⁻¹ + Gᵀ * R⁻¹ * G) = 1 := by
    have e : (1 + Gᵀ * R⁻¹ * G * P) * P⁻¹ = P⁻¹ + Gᵀ * R⁻¹ * G := by
      rw [Matrix.add_mul, Matrix.one_mul, Matrix.mul_assoc _ P, mul_nonsing_inv _ (unit_of_det (pd_det hP)),
        Matrix.mul_one]
    rw [← e, ← Matrix.mul_assoc, h, mul_nonsing_inv _ (unit_of_det (pd_det hP))]
  exact (inv_eq_left_inv this).symm

theorem psd_congr {R : Matrix m m ℝ} (hR : R.PosSemidef) (G : Matrix m n ℝ) :
    (Gᵀ * R * G).PosSemidef := by
  have := psd_conj hR Gᵀ
  rwa [transpose_transpose] at this

theorem info_pd {P : Matrix n n ℝ} (hP : P.PosDef) (G : Matrix m n ℝ) {R : Matrix m m ℝ}
    (hR : R.PosDef) : (P⁻¹ + Gᵀ * R⁻¹ * G).PosDef :=
  pd_add_psd hP.inv (psd_congr hR.inv.posSemidef G)

theorem quad_sub {A : Matrix n n ℝ} (hA : Aᵀ = A) (a b : n → ℝ) :
    (a - b) ⬝ᵥ A *ᵥ (a - b) = a ⬝ᵥ A *ᵥ a - 2 * (b ⬝ᵥ A *ᵥ a) + b ⬝ᵥ A *ᵥ b := by
  have : a ⬝ᵥ A *ᵥ b = b ⬝ᵥ A *ᵥ a := by
    rw [dotProduct_mulVec, ← mulVec_transpose, hA, dotProduct_comm]
  simp only [mulVec_sub, dotProduct_sub, sub_dotProduct, this]
  ring

theorem quad_add {A : Matrix n n ℝ} (hA : Aᵀ = A) (a b : n → ℝ) :
    (a + b) ⬝ᵥ A *ᵥ (a + b) = a ⬝ᵥ A *ᵥ a + 2 * (b ⬝ᵥ A *ᵥ a) + b ⬝ᵥ A *ᵥ b := by
  have : a ⬝ᵥ A *ᵥ b = b ⬝ᵥ A *ᵥ a := by
    rw [dotProduct_mulVec, ← mulVec_transpose, hA, dotProduct_comm]
  simp only [mulVec_add, dotProduct_add, add_dotProduct, this]
  ring

/-- Completing the square. -/
theorem complete_square {P : Matrix n n ℝ} (hP : P.PosDef) (G : Matrix m n ℝ) {R : Matrix m m ℝ}
    (hR : R.PosDef) (x : n → ℝ) (y : m → ℝ) (v : n → ℝ) :
    let xp := x + kGain P G R *ᵥ (y - G *ᵥ x)
    (v - x) ⬝ᵥ P⁻¹ *ᵥ (v - x) + (y - G *ᵥ v) ⬝ᵥ R⁻¹ *ᵥ (y - G *ᵥ v)
      = ((xp - x) ⬝ᵥ P⁻¹ *ᵥ (xp - x) + (y - G *ᵥ xp) ⬝ᵥ R⁻¹ *ᵥ (y - G *ᵥ xp))
        + (v - xp) ⬝ᵥ (P⁻¹ + Gᵀ * R⁻¹ * G) *ᵥ (v - xp) := by
  intro xp
  have hS := pd_det (innov_pd hP.posSemidef G hR)
  have hPi : P⁻¹ᵀ = P⁻¹ := psd_symm hP.inv.posSemidef
  have hRi : R⁻¹ᵀ = R⁻¹ := psd_symm hR.inv.posSemidef
  set d := v - xp with hd
  -- stationarity: P⁻¹ (xp - x) = Gᵀ R⁻¹ (y - G xp)
  have stat : P⁻¹ *ᵥ (xp - x) = Gᵀ *ᵥ (R⁻¹ *ᵥ (y - G *ᵥ xp)) := by
    have e0 : xp - x = kGain P G R *ᵥ (y - G *ᵥ x) := by simp [xp]
    set r := y - G *ᵥ x with hr
    have e1 : y - G *ᵥ xp = r - G *ᵥ (kGain P G R *ᵥ r) := by
      simp only [xp, mulVec_add, hr]; abel
    rw [e0, e1]
    have k1 : P⁻¹ * kGain P G R = Gᵀ * (G * P * Gᵀ + R)⁻¹ := by
      unfold kGain
      rw [← Matrix.mul_assoc, ← Matrix.mul_assoc, nonsing_inv_mul _ (unit_of_det (pd_det hP)),
        Matrix.one_mul]
    have k2 : R⁻¹ * (1 - G * kGain P G R) = (G * P * Gᵀ + R)⁻¹ := by
      have : (1 - G * kGain P G R) * (G * P * Gᵀ + R) = R := by
        rw [Matrix.sub_mul, Matrix.one_mul, Matrix.mul_assoc G (kGain P G R), kGain_mul P G R hS]
        simp only [Matrix.mul_assoc]; abel
      have h2 : R⁻¹ * (1 - G * kGain P G R) * (G * P * Gᵀ + R) = 1 := by
        rw [Matrix.mul_assoc, this, nonsing_inv_mul _ (unit_of_det (pd_det hR))]
      exact (inv_eq_left_inv h2).symm
    have k3 : r - G *ᵥ (kGain P G R *ᵥ r) = (1 - G * kGain P G R) *ᵥ r := by
      rw [sub_mulVec, one_mulVec, mulVec_mulVec]
    rw [k3, mulVec_mulVec, k1, mulVec_mulVec, mulVec_mulVec, Matrix.mul_assoc Gᵀ, k2]
  have a1 : v - x = (xp - x) + d := by rw [hd]; abel
  have a2 : y - G *ᵥ v = (y - G *ᵥ xp) - G *ᵥ d := by rw [hd, mulVec_sub]; abel
  rw [a1, a2, quad_add hPi, quad_sub hRi, stat]
  have c1 : d ⬝ᵥ Gᵀ *ᵥ (R⁻¹ *ᵥ (y - G *ᵥ xp)) = (G *ᵥ d) ⬝ᵥ R⁻¹ *ᵥ (y - G *ᵥ xp) := by
    rw [dotProduct_mulVec, vecMul_transpose]
  have c2 : d ⬝ᵥ (P⁻¹ + Gᵀ * R⁻¹ * G) *ᵥ d
      = d ⬝ᵥ P⁻¹ *ᵥ d + (G *ᵥ d) ⬝ᵥ R⁻¹ *ᵥ (G *ᵥ d) := by
    rw [add_mulVec, dotProduct_add]
    congr 1
    rw [Matrix.mul_assoc, ← mulVec_mulVec, dotProduct_mulVec, vecMul_transpose, ← mulVec_mulVec]
  rw [c1, c2]
  ring

end Verif
