import Verif.Model.VanLoan
import Mathlib.Analysis.Normed.Algebra.MatrixExponential
import Mathlib.Analysis.SpecialFunctions.Exponential
import Mathlib.Analysis.Calculus.Deriv.MeanValue
import Verif.Lemmas.LinAlg
import Mathlib.Algebra.Order.Star.Real
import Mathlib.MeasureTheory.Integral.IntervalIntegral.FundThmCalculus

/-!
Property theorems about `van_loans` (`navlie/utils/common.py`; C51).
-/

namespace Verif

open Matrix NormedSpace

variable {n m : ℕ}

section Blocks

variable {ι κ : Type} [Fintype ι] [Fintype κ] [DecidableEq ι] [DecidableEq κ]

theorem fromBlocks_pow_tri (A : Matrix ι ι ℝ) (B : Matrix ι κ ℝ) (D : Matrix κ κ ℝ) (k : ℕ) :
    ∃ B', (fromBlocks A B 0 D) ^ k = fromBlocks (A ^ k) B' 0 (D ^ k) := by
  induction k with
  | zero => exact ⟨0, by simp [fromBlocks_one]⟩
  | succ k ih =>
    obtain ⟨B', h⟩ := ih
    exact ⟨A ^ k * B + B' * D, by rw [pow_succ, h, fromBlocks_multiply]; simp [pow_succ]⟩

open scoped Matrix.Norms.Operator in
theorem exp_hasSum (X : Matrix ι ι ℝ) : HasSum (fun k => ((Nat.factorial k : ℝ)⁻¹) • X ^ k) (exp X) :=
  exp_series_hasSum_exp' (𝕂 := ℝ) X

/-- The exponential of a block triangular matrix. -/
theorem exp_tri (A : Matrix ι ι ℝ) (B : Matrix ι κ ℝ) (D : Matrix κ κ ℝ) :
    ∃ B', exp (fromBlocks A B 0 D) = fromBlocks (exp A) B' 0 (exp D) := by
  have h := exp_hasSum (fromBlocks A B 0 D)
  have e : ∀ i j, HasSum (fun k => ((Nat.factorial k : ℝ)⁻¹) * ((fromBlocks A B 0 D) ^ k) i j)
      (exp (fromBlocks A B 0 D) i j) := by
    intro i j
    have := (Pi.hasSum.1 ((Pi.hasSum.1 h) i)) j
    simpa using this
  have eA : ∀ i j, HasSum (fun k => ((Nat.factorial k : ℝ)⁻¹) * (A ^ k) i j) (exp A i j) := by
    intro i j
    have := (Pi.hasSum.1 ((Pi.hasSum.1 (exp_hasSum A)) i)) j
    simpa using this
  have eD : ∀ i j, HasSum (fun k => ((Nat.factorial k : ℝ)⁻¹) * (D ^ k) i j) (exp D i j) := by
    intro i j
    have := (Pi.hasSum.1 ((Pi.hasSum.1 (exp_hasSum D)) i)) j
    simpa using this
  refine ⟨(exp (fromBlocks A B 0 D)).toBlocks₁₂, ?_⟩
  ext i j
  rcases i with i | i <;> rcases j with j | j
  · refine (e (.inl i) (.inl j)).unique ?_
    simp only [fromBlocks_apply₁₁]
    refine (eA i j).congr_fun ?_ 
    intro k
    obtain ⟨B', hB⟩ := fromBlocks_pow_tri A B D k
    rw [hB]; rfl
  · rfl
  · refine (e (.inr i) (.inl j)).unique ?_
    simp only [fromBlocks_apply₂₁]
    convert hasSum_zero using 1
    funext k
    obtain ⟨B', hB⟩ := fromBlocks_pow_tri A B D k
    rw [hB]; simp
    rfl
  · refine (e (.inr i) (.inr j)).unique ?_
    simp only [fromBlocks_apply₂₂]
    convert eD i j using 1
    funext k
    obtain ⟨B', hB⟩ := fromBlocks_pow_tri A B D k
    rw [hB]; rfl

open scoped Matrix.Norms.Operator in
theorem exp_entry_deriv (X : Matrix ι ι ℝ) (t : ℝ) (i j : ι) :
    HasDerivAt (fun t : ℝ => exp (t • X) i j) ((exp (t • X) * X) i j) t := by
  have h := hasDerivAt_exp_smul_const (𝕂 := ℝ) X t
  let L : Matrix ι ι ℝ →L[ℝ] ℝ := LinearMap.toContinuousLinearMap
    { toFun := fun M => M i j, map_add' := fun _ _ => rfl, map_smul' := fun _ _ => rfl }
  exact (L.hasFDerivAt (x := exp (t • X))).comp_hasDerivAt t h

open scoped Matrix.Norms.Operator in
theorem exp_entry_deriv' (X : Matrix ι ι ℝ) (t : ℝ) (i j : ι) :
    HasDerivAt (fun t : ℝ => exp (t • X) i j) ((X * exp (t • X)) i j) t := by
  have h := hasDerivAt_exp_smul_const' (𝕂 := ℝ) X t
  let L : Matrix ι ι ℝ →L[ℝ] ℝ := LinearMap.toContinuousLinearMap
    { toFun := fun M => M i j, map_add' := fun _ _ => rfl, map_smul' := fun _ _ => rfl }
  exact (L.hasFDerivAt (x := exp (t • X))).comp_hasDerivAt t h

end Blocks

/-- The upper half of `Xi`. -/
def vlTop (A W : Mat n n) : Matrix (Fin n ⊕ Fin n) (Fin n ⊕ Fin n) ℝ := fromBlocks A W 0 (-Aᵀ)

theorem upsilon_top (A : Mat n n) (L : Mat n m) (Q : Mat m m) (t : ℝ) :
    (vanLoanUpsilon A L Q t).toBlocks₁₁ = exp (t • vlTop A (L * Q * Lᵀ)) := by
  unfold vanLoanUpsilon vanLoanXi
  rw [fromBlocks_smul, smul_zero]
  obtain ⟨B', h⟩ := exp_tri (t • fromBlocks A (L * Q * Lᵀ) 0 (-Aᵀ)) 0
    (t • fromBlocks A 0 0 0 : Matrix (Fin n ⊕ Fin n) (Fin n ⊕ Fin n) ℝ)
  rw [h]
  rfl

theorem top_blocks (A W : Mat n n) (t : ℝ) :
    ∃ B', exp (t • vlTop A W) = fromBlocks (exp (t • A)) B' 0 (exp (-(t • A)))ᵀ := by
  unfold vlTop
  rw [fromBlocks_smul, smul_zero]
  obtain ⟨B', h⟩ := exp_tri (t • A) (t • W) (t • (-Aᵀ))
  refine ⟨B', ?_⟩
  rw [h, ← exp_transpose]
  congr 2
  simp

/-- The second block of the first row. -/
noncomputable def vlU (A W : Mat n n) (t : ℝ) : Mat n n := (exp (t • vlTop A W)).toBlocks₁₂

theorem top_eq (A W : Mat n n) (t : ℝ) :
    exp (t • vlTop A W) = fromBlocks (exp (t • A)) (vlU A W t) 0 (exp (-(t • A)))ᵀ := by
  obtain ⟨B', h⟩ := top_blocks A W t
  unfold vlU
  rw [h]
  rfl

/-- **C51.** `A_d` is the transition matrix `exp(A dt)` of the continuous-time system, whatever the noise. -/
theorem C51_transition (A : Mat n n) (L : Mat n m) (Q : Mat m m) (t : ℝ) :
    (vanLoans A L Q t).1 = exp (t • A) := by
  unfold vanLoans
  simp only
  rw [upsilon_top, top_eq]
  rfl

theorem vanLoans_snd (A : Mat n n) (L : Mat n m) (Q : Mat m m) (t : ℝ) :
    (vanLoans A L Q t).2 = vlU A (L * Q * Lᵀ) t * (exp (t • A))ᵀ := by
  unfold vanLoans
  simp only
  rw [upsilon_top, top_eq]
  rfl

theorem exp_neg_mul (A : Mat n n) : (exp (-A)) * exp A = 1 := by
  rw [← exp_add_of_commute (-A) A (Commute.refl A).neg_left, neg_add_cancel, exp_zero]

theorem exp_mul_neg (A : Mat n n) : exp A * (exp (-A)) = 1 := by
  rw [← exp_add_of_commute A (-A) (Commute.refl A).neg_right, add_neg_cancel, exp_zero]

theorem exp_smul_add {ι : Type} [Fintype ι] [DecidableEq ι] (X : Matrix ι ι ℝ) (s t : ℝ) :
    exp ((s + t) • X) = exp (t • X) * exp (s • X) := by
  rw [add_comm, add_smul, exp_add_of_commute _ _ (((Commute.refl X).smul_left t).smul_right s)]

/-- **C51.** Discretizing over `s + t` is discretizing over `s` and then over `t`. -/
theorem C51_compose (A : Mat n n) (L : Mat n m) (Q : Mat m m) (s t : ℝ) :
    (vanLoans A L Q (s + t)).1 = (vanLoans A L Q t).1 * (vanLoans A L Q s).1 ∧
    (vanLoans A L Q (s + t)).2 =
      (vanLoans A L Q t).1 * (vanLoans A L Q s).2 * (vanLoans A L Q t).1ᵀ + (vanLoans A L Q t).2 := by
  have hA : (vanLoans A L Q (s + t)).1 = (vanLoans A L Q t).1 * (vanLoans A L Q s).1 := by
    simp only [C51_transition, exp_smul_add]
  refine ⟨hA, ?_⟩
  simp only [C51_transition] at hA
  simp only [C51_transition, vanLoans_snd]
  have h := exp_smul_add (vlTop A (L * Q * Lᵀ)) s t
  rw [top_eq A _ (s + t), top_eq A _ t, top_eq A _ s, fromBlocks_multiply, fromBlocks_inj] at h
  rw [h.2.1, hA, transpose_mul, add_mul]
  congr 1
  · simp only [Matrix.mul_assoc]
  · have e : (exp (-(s • A)))ᵀ * (exp (s • A))ᵀ = 1 := by rw [← transpose_mul, exp_mul_neg, transpose_one]
    rw [Matrix.mul_assoc, ← Matrix.mul_assoc ((exp (-(s • A)))ᵀ), e, Matrix.one_mul]

/-- **C51.** A step of zero length changes nothing and adds no noise. -/
theorem C51_zero (A : Mat n n) (L : Mat n m) (Q : Mat m m) :
    (vanLoans A L Q 0).1 = 1 ∧ (vanLoans A L Q 0).2 = 0 := by
  constructor
  · rw [C51_transition, zero_smul, exp_zero]
  · have h : vlU A (L * Q * Lᵀ) 0 = 0 := by
      unfold vlU
      rw [zero_smul, exp_zero, ← fromBlocks_one]
      rfl
    rw [vanLoans_snd, h, Matrix.zero_mul]

theorem vlU_deriv (A W : Mat n n) (t : ℝ) (i k : Fin n) :
    HasDerivAt (fun t => vlU A W t i k) ((exp (t • A) * W - vlU A W t * Aᵀ) i k) t := by
  have h := exp_entry_deriv (vlTop A W) t (.inl i) (.inr k)
  have e : (exp (t • vlTop A W) * vlTop A W) (.inl i) (.inr k) = (exp (t • A) * W - vlU A W t * Aᵀ) i k := by
    rw [top_eq]
    unfold vlTop
    rw [fromBlocks_multiply, fromBlocks_apply₁₂, Matrix.mul_neg, sub_eq_add_neg]
  rw [e] at h
  exact h

theorem mul_entry_deriv {ι κ τ : Type} [Fintype κ] {F : ℝ → Matrix ι κ ℝ} {G : ℝ → Matrix κ τ ℝ}
    {F' : Matrix ι κ ℝ} {G' : Matrix κ τ ℝ} {t : ℝ} (hF : ∀ i k, HasDerivAt (fun t => F t i k) (F' i k) t)
    (hG : ∀ k j, HasDerivAt (fun t => G t k j) (G' k j) t) (i : ι) (j : τ) :
    HasDerivAt (fun t => (F t * G t) i j) ((F' * G t + F t * G') i j) t := by
  simp only [Matrix.add_apply, Matrix.mul_apply]
  rw [← Finset.sum_add_distrib]
  exact HasDerivAt.fun_sum fun k _ => (hF i k).mul (hG k j)

/-- **C51.** `Q_d(t)` grows at the rate `exp(A t) L Q L^T exp(A t)^T`. -/
theorem C51_rate (A : Mat n n) (L : Mat n m) (Q : Mat m m) (t : ℝ) (i j : Fin n) :
    HasDerivAt (fun t => (vanLoans A L Q t).2 i j) ((exp (t • A) * (L * Q * Lᵀ) * (exp (t • A))ᵀ) i j) t := by
  simp only [vanLoans_snd]
  have h := mul_entry_deriv (F := fun t => vlU A (L * Q * Lᵀ) t) (G := fun t => (exp (t • A))ᵀ)
    (G' := (exp (t • A) * A)ᵀ) (vlU_deriv A (L * Q * Lᵀ) t) (fun k j => exp_entry_deriv A t j k) i j
  refine h.congr_deriv ?_
  rw [transpose_mul, sub_mul]
  simp only [Matrix.mul_assoc]
  rw [sub_add_cancel]

theorem rate_continuous (A : Mat n n) (W : Mat n n) (i j : Fin n) :
    Continuous fun t : ℝ => (exp (t • A) * W * (exp (t • A))ᵀ) i j := by
  have h : ∀ i j, Continuous fun t : ℝ => exp (t • A) i j := fun i j =>
    continuous_iff_continuousAt.2 fun t => (exp_entry_deriv A t i j).continuousAt
  simp only [Matrix.mul_apply, Matrix.transpose_apply]
  exact continuous_finsetSum _ fun k _ => (continuous_finsetSum _ fun l _ => (h i l).mul continuous_const).mul (h j k)

/-- **C51.** `Q_d` is the covariance accumulated by the continuous-time white noise:
`Q_d(dt) = ∫_0^dt exp(A s) L Q L^T exp(A s)^T ds`. -/
theorem C51_integral (A : Mat n n) (L : Mat n m) (Q : Mat m m) (dt : ℝ) (i j : Fin n) :
    (vanLoans A L Q dt).2 i j = ∫ s in (0 : ℝ)..dt, (exp (s • A) * (L * Q * Lᵀ) * (exp (s • A))ᵀ) i j := by
  rw [intervalIntegral.integral_eq_sub_of_hasDerivAt (fun t _ => C51_rate A L Q t i j)
    ((rate_continuous A _ i j).intervalIntegrable _ _), (C51_zero A L Q).2]
  simp

/-- **C51.** `Q_d` satisfies the Lyapunov equation `dP/dt = A P + P A^T + L Q L^T`. -/
theorem C51_lyapunov (A : Mat n n) (L : Mat n m) (Q : Mat m m) (t : ℝ) (i j : Fin n) :
    HasDerivAt (fun t => (vanLoans A L Q t).2 i j)
      ((A * (vanLoans A L Q t).2 + (vanLoans A L Q t).2 * Aᵀ + L * Q * Lᵀ) i j) t := by
  simp only [vanLoans_snd]
  have h0 : ∀ i k, HasDerivAt (fun t => vlU A (L * Q * Lᵀ) t i k)
      ((A * vlU A (L * Q * Lᵀ) t + L * Q * Lᵀ * (exp (-(t • A)))ᵀ) i k) t := by
    intro i k
    have h := exp_entry_deriv' (vlTop A (L * Q * Lᵀ)) t (.inl i) (.inr k)
    have e : (vlTop A (L * Q * Lᵀ) * exp (t • vlTop A (L * Q * Lᵀ))) (.inl i) (.inr k) =
        (A * vlU A (L * Q * Lᵀ) t + L * Q * Lᵀ * (exp (-(t • A)))ᵀ) i k := by
      rw [top_eq]
      unfold vlTop
      rw [fromBlocks_multiply, fromBlocks_apply₁₂]
    rw [e] at h
    exact h
  have h := mul_entry_deriv (F := fun t => vlU A (L * Q * Lᵀ) t) (G := fun t => (exp (t • A))ᵀ)
    (G' := (A * exp (t • A))ᵀ) h0 (fun k j => exp_entry_deriv' A t j k) i j
  refine h.congr_deriv ?_
  have e : (exp (-(t • A)))ᵀ * (exp (t • A))ᵀ = 1 := by rw [← transpose_mul, exp_mul_neg, transpose_one]
  rw [transpose_mul, add_mul, Matrix.mul_assoc (L * Q * Lᵀ), e, Matrix.mul_one]
  simp only [Matrix.mul_assoc, Matrix.add_apply]
  ring

/-- **C51.** `Q_d` is symmetric, and positive semidefinite for `dt ≥ 0`. -/
theorem C51_psd (A : Mat n n) (L : Mat n m) (Q : Mat m m) (hQ : Q.PosSemidef) (dt : ℝ) (hdt : 0 ≤ dt) :
    (vanLoans A L Q dt).2.PosSemidef := by
  have hW : (L * Q * Lᵀ).PosSemidef := psd_conj hQ L
  refine psd_of_dot ?_ ?_
  · ext i j
    rw [transpose_apply, C51_integral, C51_integral]
    congr 1
    funext s
    exact congrFun (congrFun (psd_symm (psd_conj hW (exp (s • A)))) i) j
  · intro v
    have hd : ∀ t, HasDerivAt (fun t => v ⬝ᵥ (vanLoans A L Q t).2 *ᵥ v)
        (v ⬝ᵥ (exp (t • A) * (L * Q * Lᵀ) * (exp (t • A))ᵀ) *ᵥ v) t := by
      intro t
      simp only [dotProduct, mulVec]
      exact HasDerivAt.fun_sum fun i _ => (HasDerivAt.fun_sum fun j _ => (C51_rate A L Q t i j).mul_const (v j)).const_mul (v i)
    have hm : Monotone fun t => v ⬝ᵥ (vanLoans A L Q t).2 *ᵥ v :=
      monotone_of_deriv_nonneg (fun t => (hd t).differentiableAt)
        (fun t => by rw [(hd t).deriv]; exact psd_dot (psd_conj hW _) v)
    have h := hm hdt
    simp only [(C51_zero A L Q).2, zero_mulVec, dotProduct_zero] at h
    exact h

/-- **C51.** `Q_d` is symmetric for every step, also a negative one. -/
theorem C51_symm (A : Mat n n) (L : Mat n m) (Q : Mat m m) (hQ : Qᵀ = Q) (dt : ℝ) :
    (vanLoans A L Q dt).2ᵀ = (vanLoans A L Q dt).2 := by
  ext i j
  rw [transpose_apply, C51_integral, C51_integral]
  congr 1
  funext s
  have hs : (exp (s • A) * (L * Q * Lᵀ) * (exp (s • A))ᵀ)ᵀ = exp (s • A) * (L * Q * Lᵀ) * (exp (s • A))ᵀ := by
    simp only [transpose_mul, transpose_transpose, hQ, Matrix.mul_assoc]
  exact congrFun (congrFun hs i) j

example : (1 : Mat 2 2).PosSemidef := Matrix.PosSemidef.one

end Verif
