import Verif.Lemmas.Imu

/-! The derivative of the matrix exponential, and its form on the Lie algebra of SE_2(3). -/

namespace Verif

open Matrix NormedSpace Filter Topology

set_option linter.unusedVariables false
set_option linter.unusedSectionVars false

section Generic

variable {ι : Type} [Fintype ι] [DecidableEq ι]

theorem HasMatDeriv.add {m n : Type} {A B : ℝ → Matrix m n ℝ} {A' B' : Matrix m n ℝ} {t : ℝ} (hA : HasMatDeriv A A' t)
    (hB : HasMatDeriv B B' t) : HasMatDeriv (fun s => A s + B s) (A' + B') t := fun i j => (hA i j).add (hB i j)

theorem HasMatDeriv.sub {m n : Type} {A B : ℝ → Matrix m n ℝ} {A' B' : Matrix m n ℝ} {t : ℝ} (hA : HasMatDeriv A A' t)
    (hB : HasMatDeriv B B' t) : HasMatDeriv (fun s => A s - B s) (A' - B') t := fun i j => (hA i j).sub (hB i j)

theorem HasMatDeriv.congr_fun {m n : Type} {X : Type} {A B : ℝ → X} {f : X → Matrix m n ℝ} {A' : Matrix m n ℝ} {t : ℝ}
    (hA : HasMatDeriv (fun s => f (A s)) A' t) (e : ∀ s, A s = B s) : HasMatDeriv (fun s => f (B s)) A' t := by
  have : A = B := funext e
  rwa [← this]

open scoped Matrix.Norms.Operator in
theorem exp_entry_continuous (X : ℝ → Matrix ι ι ℝ) (hX : ∀ i j, Continuous fun s => X s i j) (i j : ι) :
    Continuous fun s => exp (X s) i j := by
  have h1 : Continuous X := continuous_pi fun i => continuous_pi fun j => hX i j
  have h2 : Continuous fun s => exp (X s) := (exp_continuous (𝔸 := Matrix ι ι ℝ)).comp h1
  exact (continuous_apply j).comp ((continuous_apply i).comp h2)

theorem entry_hasSum (X : Matrix ι ι ℝ) (i j : ι) : HasSum (fun k => ((Nat.factorial k : ℝ)⁻¹) * (X ^ k) i j) (exp X i j) := by
  have := (Pi.hasSum.1 ((Pi.hasSum.1 (exp_hasSum X)) i)) j
  simpa using this

theorem exp_blockDiag (A C : Matrix ι ι ℝ) : exp (fromBlocks A 0 0 C) = fromBlocks (exp A) 0 0 (exp C) := by
  ext i j
  refine (entry_hasSum (fromBlocks A 0 0 C) i j).unique ?_
  simp only [fromBlocks_diagonal_pow]
  rcases i with i | i <;> rcases j with j | j
  · exact entry_hasSum A i j
  · simpa using hasSum_zero
  · simpa using hasSum_zero
  · exact entry_hasSum C i j

/-- The exponential of a block triangular matrix with blocks `A`, `(C - A) / s`, `C`. -/
theorem exp_shear (A C : Matrix ι ι ℝ) (x : ℝ) :
    exp (fromBlocks A (x • (C - A)) 0 C) = fromBlocks (exp A) (x • (exp C - exp A)) 0 (exp C) := by
  let P : Matrix (ι ⊕ ι) (ι ⊕ ι) ℝ := fromBlocks 1 (x • 1) 0 1
  let P' : Matrix (ι ⊕ ι) (ι ⊕ ι) ℝ := fromBlocks 1 (-x • 1) 0 1
  have hP : P * P' = 1 := by
    simp only [P, P']
    rw [fromBlocks_multiply, ← fromBlocks_one]
    simp
  have hu : IsUnit P := (isUnit_iff_exists_inv).2 ⟨P', hP⟩
  have hinv : P⁻¹ = P' := inv_eq_right_inv hP
  have hconj : ∀ A C : Matrix ι ι ℝ, P * fromBlocks A 0 0 C * P⁻¹ = fromBlocks A (x • (C - A)) 0 C := by
    intro A C
    rw [hinv]
    simp only [P, P']
    rw [fromBlocks_multiply, fromBlocks_multiply]
    congr 1
    · simp
    · simp [smul_sub]
      abel
    · simp
    · simp
  have := Matrix.exp_conj P (fromBlocks A 0 0 C) hu
  rw [hconj, exp_blockDiag, hconj] at this
  exact this

/-- **Derivative of the exponential**: the upper right block of the exponential of `[[A, B], [0, A]]`. -/
theorem exp_dir_deriv (A B : Matrix ι ι ℝ) :
    HasMatDeriv (fun s : ℝ => exp (A + s • B)) (exp (fromBlocks A B 0 A)).toBlocks₁₂ 0 := by
  intro i j
  rw [hasDerivAt_iff_tendsto_slope]
  have hc : Continuous fun s : ℝ => exp (fromBlocks A B 0 (A + s • B)) (.inl i) (.inr j) := by
    refine exp_entry_continuous _ ?_ _ _
    intro k l
    rcases k with k | k <;> rcases l with l | l
    · simpa using continuous_const
    · simpa using continuous_const
    · simpa using continuous_const
    · simp only [fromBlocks_apply₂₂, Matrix.add_apply, Matrix.smul_apply, smul_eq_mul]
      fun_prop
  have h0 := hc.tendsto 0
  simp only [zero_smul, add_zero] at h0
  refine (h0.mono_left nhdsWithin_le_nhds).congr' ?_
  filter_upwards [self_mem_nhdsWithin] with s hs
  have hs0 : s ≠ 0 := hs
  have e : fromBlocks A B 0 (A + s • B) = fromBlocks A (s⁻¹ • ((A + s • B) - A)) 0 (A + s • B) := by
    rw [add_sub_cancel_left, smul_smul, inv_mul_cancel₀ hs0, one_smul]
  rw [e, exp_shear]
  simp [slope_def_field]
  field_simp

theorem fromBlocks_pow_col {κ : Type} [Fintype κ] [DecidableEq κ] (A : Matrix ι ι ℝ) (B : Matrix ι κ ℝ) (n : ℕ) :
    (fromBlocks A B 0 (0 : Matrix κ κ ℝ)) ^ (n + 1) = fromBlocks (A ^ (n + 1)) (A ^ n * B) 0 0 := by
  induction n with
  | zero => simp
  | succ n ih =>
    rw [pow_succ', ih, fromBlocks_multiply]
    congr 1
    · simp [← pow_succ']
    · simp only [Matrix.mul_zero, add_zero]
      rw [← Matrix.mul_assoc, ← pow_succ']
    · simp
    · simp

theorem phi_entry' (k : ℕ) (A : Matrix ι ι ℝ) (i j : ι) :
    HasSum (fun n : ℕ => (((n + k).factorial : ℝ)⁻¹) * (A ^ n) i j) (phiSer k A i j) := by
  have := (Pi.hasSum.1 ((Pi.hasSum.1 (phi_hasSum k A)) i)) j
  simpa using this

theorem exp_phi_block (A : Matrix ι ι ℝ) (t : ℝ) :
    exp (t • fromBlocks A 1 0 (0 : Matrix ι ι ℝ)) = fromBlocks (exp (t • A)) (t • phiSer 1 (t • A)) 0 1 := by
  have e0 : t • fromBlocks A 1 0 (0 : Matrix ι ι ℝ) = fromBlocks (t • A) (t • 1) 0 0 := by
    rw [fromBlocks_smul]; simp
  rw [e0]
  ext i j
  have h := (hasSum_nat_add_iff' 1).2 (entry_hasSum (fromBlocks (t • A) (t • (1 : Matrix ι ι ℝ)) 0 0) i j)
  simp only [fromBlocks_pow_col] at h
  rcases i with i | i <;> rcases j with j | j
  · have h2 := (hasSum_nat_add_iff' 1).2 (entry_hasSum (t • A) i j)
    have := h.unique h2
    simp [Matrix.one_apply] at this ⊢
    linarith
  · have h2 := ((phi_entry' 1 (t • A) i j).mul_left t)
    have := h.unique (h2.congr_fun (by intro n; simp; ring))
    simp at this ⊢
    linarith
  · simp only [fromBlocks_apply₂₁, fromBlocks_apply₂₂, Matrix.zero_apply, mul_zero] at h
    have := h.unique hasSum_zero
    simp at this ⊢
    linarith
  · simp only [fromBlocks_apply₂₁, fromBlocks_apply₂₂, Matrix.zero_apply, mul_zero] at h
    have := h.unique hasSum_zero
    simp [Matrix.one_apply] at this ⊢
    linarith

/-- The derivative of `t φ₁(tA)` is `exp(tA)`. -/
theorem phi_deriv (A : Matrix ι ι ℝ) (t : ℝ) : HasMatDeriv (fun s => s • phiSer 1 (s • A)) (exp (t • A)) t := by
  intro i j
  have h := hasMatDeriv_exp (fromBlocks A 1 0 (0 : Matrix ι ι ℝ)) t (.inl i) (.inr j)
  simp only [exp_phi_block] at h
  rw [fromBlocks_multiply] at h
  simpa using h

/-- The derivative block along a line. -/
theorem dexp_ode (M B : Matrix ι ι ℝ) (t : ℝ) :
    HasMatDeriv (fun s => (exp (s • fromBlocks M B 0 M)).toBlocks₁₂)
      (M * (exp (t • fromBlocks M B 0 M)).toBlocks₁₂ + B * exp (t • M)) t := by
  intro i j
  have h := hasMatDeriv_exp' (fromBlocks M B 0 M) t (.inl i) (.inr j)
  refine h.congr_deriv ?_
  have e0 : t • fromBlocks M B 0 M = fromBlocks (t • M) (t • B) 0 (t • M) := by rw [fromBlocks_smul]; simp
  rw [e0]
  obtain ⟨B', hB'⟩ := exp_tri (t • M) (t • B) (t • M)
  rw [hB', fromBlocks_multiply]
  simp

/-- Derivative of a linear image of a vector. -/
theorem hasMatDeriv_linear {κ : Type} [Fintype κ] [DecidableEq κ] {m n : Type} (W : (κ → ℝ) →ₗ[ℝ] Matrix m n ℝ) {w : ℝ → κ → ℝ} {w' : κ → ℝ} {t : ℝ}
    (h : ∀ k, HasDerivAt (fun s => w s k) (w' k) t) : HasMatDeriv (fun s => W (w s)) (W w') t := by
  have e : ∀ v, W v = ∑ k, v k • W (Pi.single k 1) := by
    intro v
    rw [LinearMap.pi_apply_eq_sum_univ W v]
    refine Finset.sum_congr rfl fun k _ => ?_
    congr 2
    funext i
    simp [Pi.single_apply, eq_comm]
  intro i j
  simp only [e (w _), e w', Matrix.sum_apply, Matrix.smul_apply, smul_eq_mul]
  exact HasDerivAt.fun_sum fun k _ => (h k).mul_const _

theorem exp_smul_neg (A : Matrix ι ι ℝ) (t : ℝ) : exp (t • A) * exp (t • -A) = 1 := by
  rw [smul_neg, ← Matrix.exp_add_of_commute _ _ (Commute.neg_right (Commute.refl (t • A))), add_neg_cancel, exp_zero]

/-- **The right Jacobian of the exponential.** If the bracket with `A` acts on the space of matrices `W v` by the matrix `ad`,
the derivative of the exponential at `A` in the direction `W v` is `exp A · W (φ₁(-ad) v)`. -/
theorem dexp_right {κ : Type} [Fintype κ] [DecidableEq κ] (A : Matrix ι ι ℝ) (W : (κ → ℝ) →ₗ[ℝ] Matrix ι ι ℝ)
    (ad : Matrix κ κ ℝ) (hb : ∀ v, A * W v - W v * A = W (ad *ᵥ v)) (v : κ → ℝ) :
    HasMatDeriv (fun s : ℝ => exp (A + s • W v)) (exp A * W (phiSer 1 (-ad) *ᵥ v)) 0 := by
  refine (exp_dir_deriv A (W v)).congr_deriv ?_
  have hvec : ∀ (X : ℝ → Matrix κ κ ℝ) X' t, HasMatDeriv X X' t → ∀ k, HasDerivAt (fun s => (X s *ᵥ v) k) ((X' *ᵥ v) k) t := by
    intro X X' t h k
    exact HasDerivAt.fun_sum fun l _ => (h k l).mul_const _
  -- conjugation
  have hconj : ∀ t : ℝ, W (exp (t • -ad) *ᵥ v) = exp (t • -A) * W v * exp (t • A) := by
    intro t
    have := sandwich (-A) A (fun t => W (exp (t • -ad) *ᵥ v)) (fun t => by
      refine (hasMatDeriv_linear W (hvec _ _ t (hasMatDeriv_exp' (-ad) t))).congr_deriv ?_
      rw [← mulVec_mulVec, neg_mulVec, map_neg, ← hb]
      noncomm_ring) t
    simpa using this
  have hE : ∀ t, HasMatDeriv (fun t => exp (t • A) * W ((t • phiSer 1 (t • -ad)) *ᵥ v))
      (A * (exp (t • A) * W ((t • phiSer 1 (t • -ad)) *ᵥ v)) + W v * exp (t • A)) t := by
    intro t
    refine ((hasMatDeriv_exp' A t).mul (hasMatDeriv_linear W (hvec _ _ t (phi_deriv (-ad) t)))).congr_deriv ?_
    rw [hconj, ← mul_assoc (exp (t • A)), ← mul_assoc (exp (t • A)), exp_smul_neg, one_mul, mul_assoc]
  have hF : ∀ t, HasMatDeriv (fun t => (exp (t • fromBlocks A (W v) 0 A)).toBlocks₁₂ -
      exp (t • A) * W ((t • phiSer 1 (t • -ad)) *ᵥ v)) (A * ((exp (t • fromBlocks A (W v) 0 A)).toBlocks₁₂ -
      exp (t • A) * W ((t • phiSer 1 (t • -ad)) *ᵥ v)) + ((exp (t • fromBlocks A (W v) 0 A)).toBlocks₁₂ -
      exp (t • A) * W ((t • phiSer 1 (t • -ad)) *ᵥ v)) * 0) t := by
    intro t
    refine ((dexp_ode A (W v) t).sub (hE t)).congr_deriv ?_
    noncomm_ring
  have h1 := sandwich A 0 _ hF 1
  have h0 : (exp (0 : Matrix (ι ⊕ ι) (ι ⊕ ι) ℝ)).toBlocks₁₂ = 0 := by
    rw [exp_zero, ← fromBlocks_one, toBlocks_fromBlocks₁₂]
  simp only [zero_smul, zero_mulVec, map_zero, mul_zero, sub_zero, one_smul, h0, zero_mul] at h1
  exact sub_eq_zero.1 h1

end Generic

end Verif
