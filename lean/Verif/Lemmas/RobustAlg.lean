import Verif.Props.LinearTotal
import Verif.Lemmas.ProbOrder2

/-!
Weighted least squares with small weights on some of the pieces: the algebra behind C137.
-/

set_option linter.unusedVariables false
set_option linter.unusedSectionVars false

namespace Verif

open Matrix

/-! ### Norms -/

theorem vecNorm_nonneg {n : ℕ} (v : Vec n) : 0 ≤ vecNorm v := Real.sqrt_nonneg _

theorem dot_self_nonneg {n : ℕ} (v : Vec n) : 0 ≤ v ⬝ᵥ v := Finset.sum_nonneg fun i _ => mul_self_nonneg _

theorem vecNorm_sq {n : ℕ} (v : Vec n) : vecNorm v ^ 2 = v ⬝ᵥ v := Real.sq_sqrt (dot_self_nonneg v)

/-- Cauchy-Schwarz. -/
theorem dot_le_norm {n : ℕ} (u v : Vec n) : |u ⬝ᵥ v| ≤ vecNorm u * vecNorm v := by
  refine abs_le_of_sq_le_sq ?_ (mul_nonneg (vecNorm_nonneg u) (vecNorm_nonneg v))
  rw [mul_pow, vecNorm_sq, vecNorm_sq]
  have := Finset.sum_mul_sq_le_sq_mul_sq Finset.univ u v
  simpa [dotProduct, sq] using this

theorem entry_le_norm {n : ℕ} (v : Vec n) (i : Fin n) : |v i| ≤ vecNorm v := by
  refine abs_le_of_sq_le_sq ?_ (vecNorm_nonneg v)
  rw [vecNorm_sq, sq]
  exact Finset.single_le_sum (f := fun i => v i * v i) (fun i _ => mul_self_nonneg _) (Finset.mem_univ i)

theorem vecNorm_add {n : ℕ} (u v : Vec n) : vecNorm (u + v) ≤ vecNorm u + vecNorm v := by
  refine le_of_sq_le_sq ?_ (add_nonneg (vecNorm_nonneg u) (vecNorm_nonneg v))
  rw [vecNorm_sq, add_sq, vecNorm_sq, vecNorm_sq, add_dotProduct, dotProduct_add, dotProduct_add, dotProduct_comm v u]
  have := (abs_le.1 (dot_le_norm u v)).2
  nlinarith

theorem vecNorm_neg {n : ℕ} (v : Vec n) : vecNorm (-v) = vecNorm v := by
  unfold vecNorm
  rw [neg_dotProduct, dotProduct_neg, neg_neg]

theorem vecNorm_sub {n : ℕ} (u v : Vec n) : vecNorm (u - v) = vecNorm (v - u) := by
  rw [← vecNorm_neg, neg_sub]

/-- A bound for the norm of a matrix. -/
noncomputable def frob {m n : ℕ} (M : Mat m n) : ℝ := Real.sqrt (∑ i, vecNorm (M i) ^ 2)

theorem frob_nonneg {m n : ℕ} (M : Mat m n) : 0 ≤ frob M := Real.sqrt_nonneg _

theorem norm_mulVec_le {m n : ℕ} (M : Mat m n) (v : Vec n) : vecNorm (M *ᵥ v) ≤ frob M * vecNorm v := by
  refine le_of_sq_le_sq ?_ (mul_nonneg (frob_nonneg M) (vecNorm_nonneg v))
  rw [mul_pow, vecNorm_sq, frob, Real.sq_sqrt (Finset.sum_nonneg fun i _ => sq_nonneg _), Finset.sum_mul]
  refine Finset.sum_le_sum fun i _ => ?_
  have h := dot_le_norm (M i) v
  have h2 : (M *ᵥ v) i = M i ⬝ᵥ v := rfl
  rw [h2, ← mul_pow, ← sq]
  exact sq_le_sq' (abs_le.1 h).1 (abs_le.1 h).2

/-- An invertible `HᵀH` is bounded below. -/
theorem gram_lower {m n : ℕ} {H : Mat m n} (hd : (Hᵀ * H).det ≠ 0) :
    ∃ l : ℝ, 0 < l ∧ ∀ v : Vec n, l * vecNorm v ^ 2 ≤ v ⬝ᵥ (Hᵀ * H) *ᵥ v := by
  have hui : IsUnit (Hᵀ * H).det := isUnit_iff_ne_zero.2 hd
  obtain ⟨B, hB⟩ : ∃ B, B = (Hᵀ * H)⁻¹ * Hᵀ := ⟨_, rfl⟩
  refine ⟨(frob B ^ 2 + 1)⁻¹, by positivity, fun v => ?_⟩
  have h1 : vecNorm v ≤ frob B * vecNorm (H *ᵥ v) := by
    have := norm_mulVec_le B (H *ᵥ v)
    rwa [mulVec_mulVec, hB, Matrix.mul_assoc, nonsing_inv_mul _ hui, one_mulVec, ← hB] at this
  have h2 : v ⬝ᵥ (Hᵀ * H) *ᵥ v = vecNorm (H *ᵥ v) ^ 2 := by
    rw [vecNorm_sq, ← mulVec_mulVec, dotProduct_mulVec, vecMul_transpose]
  rw [h2, inv_mul_le_iff₀ (by positivity)]
  have h3 : vecNorm v ^ 2 ≤ (frob B * vecNorm (H *ᵥ v)) ^ 2 := pow_le_pow_left₀ (vecNorm_nonneg v) h1 2
  nlinarith [sq_nonneg (vecNorm (H *ᵥ v))]

/-! ### Pieces -/

/-- One residual of a linear problem: `e + H δ`, with a weight that depends on `δ`. -/
structure Piece (n : ℕ) where
  m : ℕ
  e : Vec m
  H : Mat m n
  loss : Loss

namespace Piece

variable {n : ℕ}

/-- The residual at `δ`. -/
def res (p : Piece n) (δ : Vec n) : Vec p.m := p.e + p.H *ᵥ δ

/-- Its weight. -/
noncomputable def w (p : Piece n) (δ : Vec n) : ℝ := p.loss.weight (vecNorm (p.res δ))

/-- Its contributions to `HᵀH` and `Hᵀe`. -/
noncomputable def A (p : Piece n) (δ : Vec n) : Mat n n := p.w δ • (p.Hᵀ * p.H)

noncomputable def b (p : Piece n) (δ : Vec n) : Vec n := p.w δ • (p.Hᵀ *ᵥ p.res δ)

theorem res_move (p : Piece n) (δ δ' : Vec n) : p.res δ = p.res δ' + p.H *ᵥ (δ - δ') := by
  unfold res
  rw [mulVec_sub]
  abel

end Piece

variable {n : ℕ}

theorem sum_mulVec' (l : List (Piece n)) (f : Piece n → Mat n n) (v : Vec n) :
    (l.map f).sum *ᵥ v = (l.map fun p => f p *ᵥ v).sum := by
  induction l with
  | nil => simp
  | cons p l ih => simp [add_mulVec, ih]

theorem dot_sum' (l : List (Piece n)) (f : Piece n → Vec n) (v : Vec n) :
    v ⬝ᵥ (l.map f).sum = (l.map fun p => v ⬝ᵥ f p).sum := by
  induction l with
  | nil => simp
  | cons p l ih => simp [dotProduct_add, ih]

theorem neg_sum_map (l : List (Piece n)) (f : Piece n → ℝ) : (l.map fun p => -f p).sum = -(l.map f).sum := by
  induction l with
  | nil => simp
  | cons p l ih => simp only [List.map_cons, List.sum_cons, ih]; ring

/-- The contribution of a piece in terms of the residual at another point. -/
theorem piece_b (p : Piece n) (δ δ' : Vec n) :
    p.b δ - p.A δ *ᵥ (δ - δ') = p.w δ • (p.Hᵀ *ᵥ p.res δ') := by
  unfold Piece.b Piece.A
  rw [p.res_move δ δ', smul_mulVec, ← smul_sub, mulVec_add, ← mulVec_mulVec, add_sub_cancel_right]

theorem gram_dot_eq {m : ℕ} (H : Mat m n) (v : Vec n) : v ⬝ᵥ (Hᵀ * H) *ᵥ v = vecNorm (H *ᵥ v) ^ 2 := by
  rw [vecNorm_sq, ← mulVec_mulVec, dotProduct_mulVec, vecMul_transpose]

/-- **One Gauss-Newton step.** The pieces `outs` are added to a problem with information `A0` whose gradient vanishes at `δs`: the step
from `δ` ends close to `δs` if the weighted residuals of `outs` are small. -/
theorem step_close {A0 : Mat n n} {l : ℝ} (hl : 0 < l) (hA0 : ∀ v : Vec n, l * vecNorm v ^ 2 ≤ v ⬝ᵥ A0 *ᵥ v) (outs : List (Piece n))
    (δ δs d : Vec n) (hw : ∀ p ∈ outs, 0 ≤ p.w δ)
    (hd : (A0 + (outs.map fun p => p.A δ).sum) *ᵥ d = -(A0 *ᵥ (δ - δs) + (outs.map fun p => p.b δ).sum)) :
    l * vecNorm (δ + d - δs) ≤ (outs.map fun p => p.w δ * (frob p.H * vecNorm (p.res δs))).sum := by
  obtain ⟨u, hu⟩ : ∃ u, u = δ + d - δs := ⟨_, rfl⟩
  have h1 : A0 *ᵥ u + (outs.map fun p => p.A δ *ᵥ u).sum = -(outs.map fun p => p.w δ • (p.Hᵀ *ᵥ p.res δs)).sum := by
    have e1 : u = d + (δ - δs) := by rw [hu]; abel
    have e2 : (outs.map fun p => p.A δ *ᵥ u).sum = (outs.map fun p => p.A δ *ᵥ d).sum + (outs.map fun p => p.A δ *ᵥ (δ - δs)).sum := by
      rw [← List.sum_map_add]
      congr 1
      refine List.map_congr_left fun p _ => ?_
      rw [e1, mulVec_add]
    have e3 : (outs.map fun p => p.b δ).sum = (outs.map fun p => p.A δ *ᵥ (δ - δs)).sum +
        (outs.map fun p => p.w δ • (p.Hᵀ *ᵥ p.res δs)).sum := by
      rw [← List.sum_map_add]
      congr 1
      refine List.map_congr_left fun p _ => ?_
      rw [← piece_b p δ δs]
      abel
    rw [add_mulVec, sum_mulVec', e3] at hd
    rw [e2, e1, mulVec_add]
    have := hd
    linear_combination (exp := 1) this
  have h2 : l * vecNorm u ^ 2 ≤ vecNorm u * (outs.map fun p => p.w δ * (frob p.H * vecNorm (p.res δs))).sum := by
    have e1 : u ⬝ᵥ A0 *ᵥ u + (outs.map fun p => u ⬝ᵥ p.A δ *ᵥ u).sum = -(outs.map fun p => u ⬝ᵥ (p.w δ • (p.Hᵀ *ᵥ p.res δs))).sum := by
      have := congrArg (fun z => u ⬝ᵥ z) h1
      simp only [dotProduct_add, dotProduct_neg, dot_sum'] at this
      exact this
    have e2 : 0 ≤ (outs.map fun p => u ⬝ᵥ p.A δ *ᵥ u).sum := by
      refine List.sum_nonneg fun x hx => ?_
      obtain ⟨p, hp, rfl⟩ := List.mem_map.1 hx
      unfold Piece.A
      rw [smul_mulVec, dotProduct_smul, gram_dot_eq]
      exact mul_nonneg (hw p hp) (sq_nonneg _)
    have e3 : -(outs.map fun p => u ⬝ᵥ (p.w δ • (p.Hᵀ *ᵥ p.res δs))).sum ≤
        vecNorm u * (outs.map fun p => p.w δ * (frob p.H * vecNorm (p.res δs))).sum := by
      rw [← List.sum_map_mul_left, ← neg_sum_map]
      refine List.sum_le_sum fun p hp => ?_
      show -(u ⬝ᵥ (p.w δ • (p.Hᵀ *ᵥ p.res δs))) ≤ _
      rw [dotProduct_smul, dotProduct_mulVec, vecMul_transpose, smul_eq_mul]
      have a1 := (abs_le.1 (dot_le_norm (p.H *ᵥ u) (p.res δs))).1
      have a2 := mul_le_mul_of_nonneg_right (norm_mulVec_le p.H u) (vecNorm_nonneg (p.res δs))
      have a3 : -(p.H *ᵥ u ⬝ᵥ p.res δs) ≤ frob p.H * vecNorm u * vecNorm (p.res δs) := by linarith
      have := mul_le_mul_of_nonneg_left a3 (hw p hp)
      nlinarith
    have := hA0 u
    linarith
  rw [← hu]
  rcases (vecNorm_nonneg u).eq_or_lt with h0 | h0
  · rw [← h0, mul_zero]
    refine List.sum_nonneg fun x hx => ?_
    obtain ⟨p, hp, rfl⟩ := List.mem_map.1 hx
    exact mul_nonneg (hw p hp) (mul_nonneg (frob_nonneg _) (vecNorm_nonneg _))
  · nlinarith

/-! ### The Cauchy weight -/

/-- A residual that is `t` at one point and has moved by at most `t / 2`: its weight times `t` is at most `4 c² / t`. -/
theorem cauchy_small {c t r : ℝ} (hc : c ≠ 0) (ht : 0 < t) (hr : t / 2 ≤ r) : (cauchyLoss c).weight r * t ≤ 4 * c ^ 2 / t := by
  show 1 / (1 + (r / c) ^ 2) * t ≤ _
  have hc2 : 0 < c ^ 2 := by positivity
  have hr0 : 0 < r := by linarith
  rw [one_div, inv_mul_eq_div, div_le_div_iff₀ (by positivity) ht]
  have h1 : (r / c) ^ 2 * c ^ 2 = r ^ 2 := by rw [div_pow, div_mul_cancel₀ _ hc2.ne']
  nlinarith [sq_nonneg (r - t / 2)]

theorem cauchy_weight_pos (c r : ℝ) : 0 < (cauchyLoss c).weight r := by
  show 0 < 1 / (1 + (r / c) ^ 2)
  positivity

/-- Bounded influence: the weight times the error never exceeds `|c| / 2`. -/
theorem cauchy_influence {c : ℝ} (hc : c ≠ 0) (r : ℝ) : (cauchyLoss c).weight r * |r| ≤ |c| / 2 := by
  show 1 / (1 + (r / c) ^ 2) * |r| ≤ _
  have hc0 : 0 < |c| := abs_pos.2 hc
  have h1 : (r / c) ^ 2 = (|r| / |c|) ^ 2 := by rw [← abs_div, sq_abs]
  rw [h1, one_div, inv_mul_eq_div, div_le_div_iff₀ (by positivity) two_pos]
  have h2 : (|r| / |c|) ^ 2 * |c| = |r| * (|r| / |c|) := by field_simp
  have h3 : |r| = |r| / |c| * |c| := by field_simp
  obtain ⟨q, hq⟩ : ∃ q, q = |r| / |c| := ⟨_, rfl⟩
  rw [← hq] at h2 h3 ⊢
  rw [h3]
  nlinarith [sq_nonneg (q - 1), mul_nonneg hc0.le (sq_nonneg (q - 1))]

end Verif
