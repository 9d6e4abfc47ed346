import Verif.Model.Imu
import Verif.Lemmas.Lie
import Mathlib.Analysis.SpecialFunctions.Trigonometric.Series
import Mathlib.Analysis.Calculus.MeanValue

/-! Helper lemmas about `Verif.Model.Imu`: the series `phiSer`, exponentials. -/

namespace Verif

open Matrix NormedSpace

set_option linter.unusedVariables false
set_option linter.unusedSectionVars false

section Series

variable {ι : Type} [Fintype ι] [DecidableEq ι]

open scoped Matrix.Norms.Operator in
theorem phi_summable (k : ℕ) (A : Matrix ι ι ℝ) : Summable fun n : ℕ => (((n + k).factorial : ℝ)⁻¹) • A ^ n := by
  refine Summable.of_norm_bounded_eventually_nat (Real.summable_pow_div_factorial ‖A‖) ?_
  filter_upwards [Filter.eventually_gt_atTop 0] with n hn
  rw [norm_smul, Real.norm_of_nonneg (by positivity), div_eq_inv_mul]
  refine mul_le_mul ?_ (norm_pow_le' A hn) (norm_nonneg _) (by positivity)
  exact inv_anti₀ (by positivity) (by exact_mod_cast Nat.factorial_le (by omega))

theorem phi_hasSum (k : ℕ) (A : Matrix ι ι ℝ) : HasSum (fun n : ℕ => (((n + k).factorial : ℝ)⁻¹) • A ^ n) (phiSer k A) :=
  (phi_summable k A).hasSum

theorem phi_zero (A : Matrix ι ι ℝ) : phiSer 0 A = exp A := (phi_hasSum 0 A).unique (exp_hasSum A)

/-- `phiSer k A = 1 / k! + A phiSer (k + 1) A`. -/
theorem phi_succ (k : ℕ) (A : Matrix ι ι ℝ) : phiSer k A = ((k.factorial : ℝ)⁻¹) • 1 + A * phiSer (k + 1) A := by
  have h := phi_hasSum k A
  have h1 : HasSum (fun n : ℕ => (((n + 1 + k).factorial : ℝ)⁻¹) • A ^ (n + 1)) (A * phiSer (k + 1) A) := by
    have := (phi_hasSum (k + 1) A).mul_left A
    refine this.congr_fun ?_
    intro n
    rw [mul_smul_comm, ← pow_succ', show n + 1 + k = n + (k + 1) by ring]
  have h3 := h1.unique ((hasSum_nat_add_iff' 1).2 h)
  simp at h3
  rw [h3]
  abel

theorem phi_at_zero (k : ℕ) : phiSer k (0 : Matrix ι ι ℝ) = ((k.factorial : ℝ)⁻¹) • 1 := by
  rw [phi_succ]; simp

theorem phi_entry (k : ℕ) (A : Matrix ι ι ℝ) (v : ι → ℝ) (i : ι) :
    HasSum (fun n : ℕ => (((n + k).factorial : ℝ)⁻¹) * (A ^ n *ᵥ v) i) ((phiSer k A *ᵥ v) i) := by
  have h := (phi_hasSum k A).map
    (⟨⟨fun M : Matrix ι ι ℝ => (M *ᵥ v) i, by simp⟩, fun a b => by simp [add_mulVec]⟩ : Matrix ι ι ℝ →+ ℝ)
    (by
      show Continuous fun M : Matrix ι ι ℝ => ∑ j, M i j * v j
      fun_prop)
  refine h.congr_fun ?_
  intro n
  simp [smul_mulVec]

end Series

/-! ### 5 × 5 matrices -/

/-- Two columns side by side. -/
def cols (a b : Vec 3) : Matrix (Fin 3) (Fin 2) ℝ := .of fun i j => ![a i, b i] j

theorem mul_cols (A : Mat 3 3) (a b : Vec 3) : A * cols a b = cols (A *ᵥ a) (A *ᵥ b) := by
  ext i j; fin_cases j <;> simp [cols, Matrix.mul_apply, mulVec, dotProduct]

theorem cols_mul (a b : Vec 3) (x y z w : ℝ) : cols a b * !![x, y; z, w] = cols (x • a + z • b) (y • a + w • b) := by
  ext i j; fin_cases j <;> simp [cols, Matrix.mul_apply, Fin.sum_univ_two] <;> ring

theorem cols_add (a b a' b' : Vec 3) : cols a b + cols a' b' = cols (a + a') (b + b') := by
  ext i j; fin_cases j <;> simp [cols]

theorem cols_smul (t : ℝ) (a b : Vec 3) : t • cols a b = cols (t • a) (t • b) := by
  ext i j; fin_cases j <;> simp [cols]

theorem cols_zero : cols 0 0 = 0 := by
  ext i j; fin_cases j <;> simp [cols]

theorem mkIE_eq (R : Mat 3 3) (a b : Vec 3) (c : ℝ) : mkIE R a b c = fromBlocks R (cols a b) 0 !![1, c; 0, 1] := rfl

theorem mkIE_rot (R : Mat 3 3) (a b : Vec 3) (c : ℝ) : (mkIE R a b c).rot = R := rfl
theorem mkIE_colA (R : Mat 3 3) (a b : Vec 3) (c : ℝ) : (mkIE R a b c).colA = a := rfl
theorem mkIE_colB (R : Mat 3 3) (a b : Vec 3) (c : ℝ) : (mkIE R a b c).colB = b := rfl
theorem mkIE_time (R : Mat 3 3) (a b : Vec 3) (c : ℝ) : (mkIE R a b c).time = c := rfl

theorem mkIE_mul (R S : Mat 3 3) (a b a' b' : Vec 3) (c c' : ℝ) :
    mkIE R a b c * mkIE S a' b' c' = mkIE (R * S) (R *ᵥ a' + a) (R *ᵥ b' + (c' • a + b)) (c + c') := by
  rw [mkIE_eq, mkIE_eq, mkIE_eq, fromBlocks_multiply, mul_cols, cols_mul, cols_add]
  simp [add_comm]

theorem mkIE_one : mkIE 1 0 0 0 = 1 := by
  rw [mkIE_eq, cols_zero, ← fromBlocks_one]
  congr 1
  ext i j; fin_cases i <;> fin_cases j <;> rfl

theorem mkIE_inj {R S : Mat 3 3} {a b a' b' : Vec 3} {c c' : ℝ} (h : mkIE R a b c = mkIE S a' b' c') :
    R = S ∧ a = a' ∧ b = b' ∧ c = c' :=
  ⟨congrArg EPose.rot h, congrArg EPose.colA h, congrArg EPose.colB h, congrArg EPose.time h⟩

/-- The generator of a motion with constant rotation rate `A`, velocity rate `a`, position rate `b` and time rate `d`. -/
def ieGen (A : Mat 3 3) (a b : Vec 3) (d : ℝ) : EPose := fromBlocks A (cols a b) 0 !![0, d; 0, 0]

theorem ieGen_mul (A B : Mat 3 3) (a b a' b' : Vec 3) (d d' : ℝ) :
    ieGen A a b d * ieGen B a' b' d' = ieGen (A * B) (A *ᵥ a') (A *ᵥ b' + d' • a) 0 := by
  unfold ieGen
  rw [fromBlocks_multiply, mul_cols, cols_mul, cols_add]
  congr 1
  · simp
  · simp
  · simp
  · ext i j; fin_cases i <;> fin_cases j <;> simp [Matrix.mul_apply, Fin.sum_univ_two]

theorem ieGen_smul (t : ℝ) (A : Mat 3 3) (a b : Vec 3) (d : ℝ) :
    t • ieGen A a b d = ieGen (t • A) (t • a) (t • b) (t * d) := by
  unfold ieGen
  rw [fromBlocks_smul, cols_smul]
  simp

theorem ieGen_pow_two (A : Mat 3 3) (a b : Vec 3) (d : ℝ) (n : ℕ) :
    ieGen A a b d ^ (n + 2) = ieGen (A ^ (n + 2)) (A ^ (n + 1) *ᵥ a) (A ^ (n + 1) *ᵥ b + d • (A ^ n *ᵥ a)) 0 := by
  induction n with
  | zero => rw [pow_two, ieGen_mul]; simp [pow_two]
  | succ n ih =>
    rw [pow_succ', ih, ieGen_mul]
    congr 1
    · rw [← pow_succ']
    · rw [mulVec_mulVec, ← pow_succ']
    · rw [mulVec_add, mulVec_mulVec, ← pow_succ', mulVec_smul, mulVec_mulVec, ← pow_succ', zero_smul, add_zero]

/-- The exponential of a generator. -/
theorem exp_ieGen (A : Mat 3 3) (a b : Vec 3) (d : ℝ) :
    exp (ieGen A a b d) = mkIE (exp A) (phiSer 1 A *ᵥ a) (phiSer 1 A *ᵥ b + d • (phiSer 2 A *ᵥ a)) d := by
  have h := exp_hasSum (ieGen A a b d)
  have h0 : ∀ i j, HasSum (fun k => ((Nat.factorial k : ℝ)⁻¹) * (ieGen A a b d ^ k) i j) (exp (ieGen A a b d) i j) := by
    intro i j
    have := (Pi.hasSum.1 ((Pi.hasSum.1 h) i)) j
    simpa using this
  have h2 : ∀ i j, HasSum (fun k => ((Nat.factorial (k + 2) : ℝ)⁻¹) * (ieGen A a b d ^ (k + 2)) i j)
      (exp (ieGen A a b d) i j - ((1 : EPose) i j + ieGen A a b d i j)) := by
    intro i j
    have := (hasSum_nat_add_iff' 2).2 (h0 i j)
    simpa [Finset.sum_range_succ] using this
  have hv1 : ∀ (v : Vec 3) i, HasSum (fun k => ((Nat.factorial (k + 2) : ℝ)⁻¹) * (A ^ (k + 1) *ᵥ v) i) ((phiSer 1 A *ᵥ v) i - v i) := by
    intro v i
    have := (hasSum_nat_add_iff' 1).2 (phi_entry 1 A v i)
    simpa using this
  have hv2 : ∀ (v : Vec 3) i, HasSum (fun k => ((Nat.factorial (k + 2) : ℝ)⁻¹) * (A ^ k *ᵥ v) i) ((phiSer 2 A *ᵥ v) i) :=
    phi_entry 2 A
  have hA : ∀ i j, HasSum (fun k => ((Nat.factorial (k + 2) : ℝ)⁻¹) * (A ^ (k + 2)) i j) (exp A i j - ((1 : Mat 3 3) i j + A i j)) := by
    intro i j
    have := (Pi.hasSum.1 ((Pi.hasSum.1 (exp_hasSum A)) i)) j
    have := (hasSum_nat_add_iff' 2).2 this
    simpa [Finset.sum_range_succ] using this
  simp only [ieGen_pow_two] at h2
  ext i j
  rcases i with i | i <;> rcases j with j | j
  · have := (h2 (.inl i) (.inl j)).unique (hA i j)
    simp [ieGen, mkIE_eq, Matrix.one_apply] at this ⊢
    linarith
  · fin_cases j
    · have := (h2 (.inl i) (.inr 0)).unique (hv1 a i)
      simp [ieGen, mkIE_eq, cols] at this ⊢
      linarith
    · have := (h2 (.inl i) (.inr 1)).unique (((hv1 b i).add ((hv2 a i).mul_left d)).congr_fun (by
        intro k
        simp [ieGen, cols]
        ring))
      simp [ieGen, mkIE_eq, cols] at this ⊢
      linarith
  · have := (h2 (.inr i) (.inl j)).unique (by
      have hz : (fun k : ℕ => ((Nat.factorial (k + 2) : ℝ)⁻¹) * (ieGen (A ^ (k + 2)) (A ^ (k + 1) *ᵥ a)
          (A ^ (k + 1) *ᵥ b + d • (A ^ k *ᵥ a)) 0) (.inr i) (.inl j)) = fun _ => 0 := by
        funext k
        simp [ieGen]
      rw [hz]
      exact hasSum_zero)
    simp [ieGen, mkIE_eq] at this ⊢
    linarith
  · have := (h2 (.inr i) (.inr j)).unique (by
      have hz : (fun k : ℕ => ((Nat.factorial (k + 2) : ℝ)⁻¹) * (ieGen (A ^ (k + 2)) (A ^ (k + 1) *ᵥ a)
          (A ^ (k + 1) *ᵥ b + d • (A ^ k *ᵥ a)) 0) (.inr i) (.inr j)) = fun _ => 0 := by
        funext k
        fin_cases i <;> fin_cases j <;> simp [ieGen]
      rw [hz]
      exact hasSum_zero)
    fin_cases i <;> fin_cases j <;> simp [ieGen, mkIE_eq] at this ⊢ <;> linarith

/-! ### The closed form of the second series -/

theorem skew_sq (a : Vec 3) : skew a * skew a = vecMulVec a a - (a ⬝ᵥ a) • 1 := by
  ext i j
  fin_cases i <;> fin_cases j <;>
    simp [skew, vecMulVec_apply, Matrix.mul_apply, dotProduct, Fin.sum_univ_three, Matrix.one_apply] <;> ring

theorem skew_cube (a : Vec 3) : skew a * skew a * skew a = -(a ⬝ᵥ a) • skew a := by
  ext i j
  fin_cases i <;> fin_cases j <;>
    simp [skew, Matrix.mul_apply, dotProduct, Fin.sum_univ_three] <;> ring

theorem pow_odd {A : Mat 3 3} {q : ℝ} (h : A * A * A = -q • A) (k : ℕ) : A ^ (2 * k + 1) = (-q) ^ k • A := by
  induction k with
  | zero => simp
  | succ k ih =>
    rw [show 2 * (k + 1) + 1 = (2 * k + 1) + 2 by ring, pow_add, ih, pow_two, smul_mul_assoc, ← mul_assoc, h, smul_smul, pow_succ]

theorem sin_tail (p : ℝ) (hp : p ≠ 0) :
    HasSum (fun k : ℕ => (((2 * k + 3).factorial : ℝ)⁻¹) * (-p ^ 2) ^ k) ((p - Real.sin p) / p ^ 3) := by
  have h := (hasSum_nat_add_iff' 1).2 (Real.hasSum_sin p)
  have h2 := h.mul_left (-(p ^ 3)⁻¹)
  have e : -(p ^ 3)⁻¹ * (Real.sin p - ∑ i ∈ Finset.range 1, (-1) ^ i * p ^ (2 * i + 1) / ((2 * i + 1).factorial : ℝ)) =
      (p - Real.sin p) / p ^ 3 := by
    simp
    field_simp
    ring
  rw [e] at h2
  refine h2.congr_fun ?_
  intro k
  rw [show 2 * (k + 1) + 1 = 2 * k + 3 by ring, neg_pow, ← pow_mul, pow_add p (2 * k) 3]
  field_simp
  ring

theorem cos_tail (p : ℝ) (hp : p ≠ 0) :
    HasSum (fun k : ℕ => (((2 * k + 4).factorial : ℝ)⁻¹) * (-p ^ 2) ^ k) ((Real.cos p - 1 + p ^ 2 / 2) / p ^ 4) := by
  have h := (hasSum_nat_add_iff' 2).2 (Real.hasSum_cos p)
  have h2 := h.mul_left ((p ^ 4)⁻¹)
  have e : (p ^ 4)⁻¹ * (Real.cos p - ∑ i ∈ Finset.range 2, (-1) ^ i * p ^ (2 * i) / ((2 * i).factorial : ℝ)) =
      (Real.cos p - 1 + p ^ 2 / 2) / p ^ 4 := by
    simp [Finset.sum_range_succ, Nat.factorial]
    field_simp
    ring
  rw [e] at h2
  refine h2.congr_fun ?_
  intro k
  rw [show 2 * (k + 2) = 2 * k + 4 by ring, neg_pow, ← pow_mul, pow_add p (2 * k) 4, pow_add (-1 : ℝ) k 2]
  field_simp

/-- The second series of a matrix with `A³ = -p² A`. -/
theorem phi_two_closed {A : Mat 3 3} {p : ℝ} (hp : p ≠ 0) (h : A * A * A = -p ^ 2 • A) :
    phiSer 2 A = (1 / 2 : ℝ) • 1 + ((p - Real.sin p) / p ^ 3) • A + ((Real.cos p - 1 + p ^ 2 / 2) / p ^ 4) • (A * A) := by
  have ho : HasSum (fun k : ℕ => (((2 * k + 1 + 2).factorial : ℝ)⁻¹) • A ^ (2 * k + 1)) (((p - Real.sin p) / p ^ 3) • A) := by
    refine ((sin_tail p hp).smul_const A).congr_fun ?_
    intro k
    rw [pow_odd h, smul_smul]
  have he : HasSum (fun k : ℕ => (((2 * k + 2 + 2).factorial : ℝ)⁻¹) • A ^ (2 * k + 2))
      (((Real.cos p - 1 + p ^ 2 / 2) / p ^ 4) • (A * A)) := by
    refine ((cos_tail p hp).smul_const (A * A)).congr_fun ?_
    intro k
    rw [show 2 * k + 2 = (2 * k + 1) + 1 by ring, pow_succ, pow_odd h, smul_mul_assoc, smul_smul]
  have hall : HasSum (fun n : ℕ => (((n + 1 + 2).factorial : ℝ)⁻¹) • A ^ (n + 1))
      (((p - Real.sin p) / p ^ 3) • A + ((Real.cos p - 1 + p ^ 2 / 2) / p ^ 4) • (A * A)) := by
    refine HasSum.even_add_odd ?_ ?_
    · exact ho
    · exact he
  have h3 := hall.unique ((hasSum_nat_add_iff' 1).2 (phi_hasSum 2 A))
  simp at h3
  rw [eq_sub_iff_add_eq] at h3
  rw [← h3]
  simp
  abel

theorem npNorm_sq (v : Vec 3) : npNorm v ^ 2 = v ⬝ᵥ v := by
  unfold npNorm
  rw [Real.sq_sqrt]
  exact Finset.sum_nonneg fun i _ => mul_self_nonneg _

theorem npNorm_eq_zero {v : Vec 3} (h : npNorm v = 0) : v = 0 := by
  have := npNorm_sq v
  rw [h] at this
  exact dotProduct_self_eq_zero.1 (by simpa using this.symm)

/-- The closed form of `N_matrix` above the small angle tolerance, and its value at 0. -/
theorem nMatrix_eq (tol : ℝ) (htol : 0 < tol) (φ : Vec 3) (h : φ = 0 ∨ tol ≤ npNorm φ) :
    nMatrix tol φ = (2 : ℝ) • phiSer 2 (skew φ) := by
  rcases h with rfl | h
  · unfold nMatrix
    rw [if_pos (by simpa [npNorm] using htol), skew_zero, phi_at_zero]
    simp
  · have hp : npNorm φ ≠ 0 := (lt_of_lt_of_le htol h).ne'
    have hc : skew φ * skew φ * skew φ = -npNorm φ ^ 2 • skew φ := by rw [skew_cube, npNorm_sq]
    rw [phi_two_closed hp hc]
    unfold nMatrix
    rw [if_neg (not_lt.2 h)]
    simp only
    generalize hpp : npNorm φ = p at *
    rw [skew_smul, skew_sq]
    have hv : vecMulVec (p⁻¹ • φ) (p⁻¹ • φ) = (p⁻¹ * p⁻¹) • vecMulVec φ φ := by
      rw [smul_vecMulVec, vecMulVec_smul, smul_smul]
    have hd : φ ⬝ᵥ φ = p ^ 2 := by rw [← npNorm_sq, hpp]
    rw [hv, hd]
    generalize vecMulVec φ φ = V
    generalize skew φ = S
    ext i j
    simp
    field_simp
    ring

/-! ### The first series and its reflection -/

theorem phi_neg (A : Mat 3 3) : exp A * phiSer 1 (-A) = phiSer 1 A := by
  have key : ∀ a : Vec 3, exp A *ᵥ (phiSer 1 (-A) *ᵥ a) = phiSer 1 A *ᵥ a := by
    intro a
    have h1 := exp_ieGen A a 0 0
    have h2 := exp_ieGen (-A) (-a) 0 0
    have hneg : ieGen (-A) (-a) 0 0 = -ieGen A a 0 0 := by
      have := ieGen_smul (-1) A a 0 0
      simpa using this.symm
    have h3 : exp (ieGen A a 0 0) * exp (ieGen (-A) (-a) 0 0) = 1 := by
      rw [hneg, ← Matrix.exp_add_of_commute _ _ (Commute.neg_right (Commute.refl (ieGen A a 0 0))), add_neg_cancel, exp_zero]
    rw [h1, h2, mkIE_mul, ← mkIE_one] at h3
    have := (mkIE_inj h3).2.1
    rw [mulVec_neg, mulVec_neg, neg_add_eq_zero] at this
    exact this
  ext i j
  have := congrFun (key (Pi.single j 1)) i
  rw [mulVec_mulVec] at this
  simpa using this

theorem phi_neg' (A : Mat 3 3) : exp (-A) * phiSer 1 A = phiSer 1 (-A) := by
  have := phi_neg (-A)
  rwa [neg_neg] at this

/-! ### Rotations -/

/-- Rotation matrices. -/
def IsRot (R : Mat 3 3) : Prop := IsOrtho R ∧ R.det = 1

theorem isRot_one : IsRot 1 := ⟨by simp [IsOrtho], by simp⟩

theorem IsRot.mul {R S : Mat 3 3} (h : IsRot R) (h' : IsRot S) : IsRot (R * S) :=
  ⟨h.1.mul h'.1, by rw [det_mul, h.2, h'.2, one_mul]⟩

theorem IsRot.transpose {R : Mat 3 3} (h : IsRot R) : IsRot Rᵀ := ⟨h.1.transpose, by rw [det_transpose, h.2]⟩

theorem IsOrtho.det_sq {R : Mat 3 3} (h : IsOrtho R) : R.det * R.det = 1 := by
  have := congrArg det h
  rwa [det_mul, det_transpose, det_one] at this

theorem so3Exp_isRot (φ : Vec 3) : IsRot (so3Exp φ) := by
  have ho := exp_skew_ortho φ
  refine ⟨ho, ?_⟩
  have hh : exp (skew φ) = exp (skew ((1 / 2 : ℝ) • φ)) * exp (skew ((1 / 2 : ℝ) • φ)) := by
    rw [← Matrix.exp_add_of_commute _ _ (Commute.refl (skew ((1 / 2 : ℝ) • φ))), ← skew_add, ← add_smul]
    norm_num
  have h2 : so3Exp φ = exp (skew φ) := rfl
  rw [h2, hh, det_mul]
  exact (exp_skew_ortho ((1 / 2 : ℝ) • φ)).det_sq

theorem skew_conj (R : Mat 3 3) (a : Vec 3) : Rᵀ * skew (R *ᵥ a) * R = R.det • skew a := by
  rw [det_fin_three]
  ext i j
  fin_cases i <;> fin_cases j <;>
    simp [skew, Matrix.mul_apply, mulVec, dotProduct, Fin.sum_univ_three] <;> ring

theorem IsRot.skew {R : Mat 3 3} (h : IsRot R) (a : Vec 3) : Verif.skew (R *ᵥ a) * R = R * Verif.skew a := by
  have := congrArg (R * ·) (skew_conj R a)
  simp only [h.2, one_smul] at this
  rwa [← mul_assoc, ← mul_assoc, h.1.right, one_mul] at this

/-! ### Entrywise derivatives of matrices -/

/-- Entrywise derivative of a matrix valued function. -/
def HasMatDeriv {m n : Type} (A : ℝ → Matrix m n ℝ) (A' : Matrix m n ℝ) (t : ℝ) : Prop :=
  ∀ i j, HasDerivAt (fun s => A s i j) (A' i j) t

theorem HasMatDeriv.mul {l m n : Type} [Fintype m] {A : ℝ → Matrix l m ℝ} {B : ℝ → Matrix m n ℝ} {A' : Matrix l m ℝ}
    {B' : Matrix m n ℝ} {t : ℝ} (hA : HasMatDeriv A A' t) (hB : HasMatDeriv B B' t) :
    HasMatDeriv (fun s => A s * B s) (A' * B t + A t * B') t := by
  intro i j
  have : HasDerivAt (fun s => ∑ k, A s i k * B s k j) (∑ k, (A' i k * B t k j + A t i k * B' k j)) t :=
    HasDerivAt.fun_sum fun k _ => (hA i k).mul (hB k j)
  refine (this.congr_deriv ?_)
  rw [Finset.sum_add_distrib]
  rfl

theorem HasMatDeriv.congr_deriv {m n : Type} {A : ℝ → Matrix m n ℝ} {A' A'' : Matrix m n ℝ} {t : ℝ}
    (h : HasMatDeriv A A' t) (e : A' = A'') : HasMatDeriv A A'' t := e ▸ h

theorem hasMatDeriv_const {m n : Type} (C : Matrix m n ℝ) (t : ℝ) : HasMatDeriv (fun _ => C) 0 t :=
  fun i j => hasDerivAt_const t (C i j)

theorem hasMatDeriv_exp {m : Type} [Fintype m] [DecidableEq m] (X : Matrix m m ℝ) (t : ℝ) :
    HasMatDeriv (fun s => exp (s • X)) (exp (t • X) * X) t := fun i j => exp_entry_deriv X t i j

theorem hasMatDeriv_exp' {m : Type} [Fintype m] [DecidableEq m] (X : Matrix m m ℝ) (t : ℝ) :
    HasMatDeriv (fun s => exp (s • X)) (X * exp (t • X)) t := fun i j => exp_entry_deriv' X t i j

theorem hasMatDeriv_zero_const {m n : Type} {A : ℝ → Matrix m n ℝ} (h : ∀ t, HasMatDeriv A 0 t) (s t : ℝ) : A s = A t := by
  ext i j
  exact is_const_of_deriv_eq_zero (f := fun s => A s i j) (fun t => (h t i j).differentiableAt) (fun t => (h t i j).deriv) s t

/-- A matrix function with `T' = G T + T M` is `exp(tG) T(0) exp(tM)`. -/
theorem sandwich {m : Type} [Fintype m] [DecidableEq m] (G M : Matrix m m ℝ) (T : ℝ → Matrix m m ℝ)
    (h : ∀ t, HasMatDeriv T (G * T t + T t * M) t) (t : ℝ) : T t = exp (t • G) * T 0 * exp (t • M) := by
  have hinv : ∀ (X : Matrix m m ℝ) (s : ℝ), exp (s • X) * exp (s • -X) = 1 := by
    intro X s
    rw [smul_neg, ← Matrix.exp_add_of_commute _ _ (Commute.neg_right (Commute.refl (s • X))), add_neg_cancel, exp_zero]
  have hc : ∀ s, HasMatDeriv (fun s => exp (s • -G) * T s * exp (s • -M)) 0 s := by
    intro s
    refine (((hasMatDeriv_exp (-G) s).mul (h s)).mul (hasMatDeriv_exp' (-M) s)).congr_deriv ?_
    noncomm_ring
  have e := hasMatDeriv_zero_const hc t 0
  simp only [zero_smul, exp_zero, one_mul, mul_one] at e
  rw [← e, ← mul_assoc, ← mul_assoc, hinv, one_mul, mul_assoc]
  have := hinv (-M) t
  rw [neg_neg] at this
  rw [this, mul_one]

end Verif
