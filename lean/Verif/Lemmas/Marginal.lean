import Verif.Lemmas.Info
import Verif.Props.FilterBatch

/-!
Marginals of quadratic forms: the block of the inverse is the marginal covariance.
-/

namespace Verif

set_option linter.unusedVariables false
set_option linter.unusedSectionVars false

open Matrix

theorem symm_zero_of_quad {n : ℕ} {D : Mat n n} (hs : Dᵀ = D) (h : ∀ z : Vec n, z ⬝ᵥ D *ᵥ z = 0) : D = 0 := by
  have hb : ∀ z w : Vec n, w ⬝ᵥ D *ᵥ z = 0 := by
    intro z w
    have h1 := h (z + w)
    rw [mulVec_add, add_dotProduct, dotProduct_add, dotProduct_add, h z, h w] at h1
    have h2 : z ⬝ᵥ D *ᵥ w = w ⬝ᵥ D *ᵥ z := by
      rw [dotProduct_mulVec, ← mulVec_transpose, hs, dotProduct_comm]
    linarith
  refine Matrix.mulVec_injective (funext fun z => ?_)
  show D *ᵥ z = 0 *ᵥ z
  rw [zero_mulVec]
  exact dotProduct_self_eq_zero.1 (hb z (D *ᵥ z))

theorem symm_ext {n : ℕ} {D E : Mat n n} (hs : Dᵀ = D) (ht : Eᵀ = E) (h : ∀ z : Vec n, z ⬝ᵥ D *ᵥ z = z ⬝ᵥ E *ᵥ z) :
    D = E := by
  refine sub_eq_zero.1 (symm_zero_of_quad (by rw [transpose_sub, hs, ht]) fun z => ?_)
  rw [sub_mulVec, dotProduct_sub, h, sub_self]

/-- If the minimum of a positive definite form `ηᵀ M η` over all `η` with a given restriction `w` is `wᵀ G⁻¹ w`, the
block of `M⁻¹` is `G`. -/
theorem marginal_block {N n : ℕ} {M : Mat N N} (hM : M.PosDef) {G : Mat n n} (hG : G.PosDef) (ι : Fin n → Fin N)
    (hι : Function.Injective ι) (h1 : ∀ η : Vec N, mahal G (fun i => η (ι i)) ≤ η ⬝ᵥ M *ᵥ η)
    (h2 : ∀ w : Vec n, ∃ η : Vec N, (fun i => η (ι i)) = w ∧ η ⬝ᵥ M *ᵥ η = mahal G w) :
    ∀ i j, M⁻¹ (ι i) (ι j) = G i j := by
  classical
  have hMd := unit_of_det (pd_det hM)
  have hMs : Mᵀ = M := psd_symm hM.posSemidef
  have hMi : M⁻¹.PosDef := hM.inv
  have hMis : M⁻¹ᵀ = M⁻¹ := psd_symm hMi.posSemidef
  set S : Mat n n := M⁻¹.submatrix ι ι with hS
  have hSs : Sᵀ = S := by
    ext i j
    show M⁻¹ (ι j) (ι i) = M⁻¹ (ι i) (ι j)
    conv_lhs => rw [← hMis]
    rfl
  -- extension by zero
  let up : Vec n → Vec N := fun z p => ∑ i, if ι i = p then z i else 0
  have hup : ∀ (z : Vec n) (η : Vec N), η ⬝ᵥ up z = (fun i => η (ι i)) ⬝ᵥ z := by
    intro z η
    show ∑ p, η p * ∑ i, (if ι i = p then z i else 0) = ∑ i, η (ι i) * z i
    simp only [Finset.mul_sum]
    rw [Finset.sum_comm]
    refine Finset.sum_congr rfl fun i _ => ?_
    simp
  have hres : ∀ (z : Vec n), (fun i => (M⁻¹ *ᵥ up z) (ι i)) = S *ᵥ z := by
    intro z
    funext i
    show M⁻¹ (ι i) ⬝ᵥ up z = S i ⬝ᵥ z
    rw [hup]
    rfl
  have hval : ∀ z : Vec n, (M⁻¹ *ᵥ up z) ⬝ᵥ M *ᵥ (M⁻¹ *ᵥ up z) = z ⬝ᵥ S *ᵥ z := by
    intro z
    rw [mulVec_mulVec, mul_nonsing_inv _ hMd, one_mulVec, hup, hres, dotProduct_comm]
  have hmin : ∀ z : Vec n, mahal G (S *ᵥ z) = z ⬝ᵥ S *ᵥ z := by
    intro z
    refine le_antisymm ?_ ?_
    · have := h1 (M⁻¹ *ᵥ up z)
      rw [hres, hval] at this
      exact this
    · obtain ⟨η, e1, e2⟩ := h2 (S *ᵥ z)
      rw [← e2]
      set η0 := M⁻¹ *ᵥ up z with h0
      have hx : (η - η0) ⬝ᵥ M *ᵥ η0 = 0 := by
        rw [h0, mulVec_mulVec, mul_nonsing_inv _ hMd, one_mulVec, hup]
        have : (fun i => (η - η0) (ι i)) = 0 := by
          funext i
          show η (ι i) - η0 (ι i) = 0
          have a : η (ι i) = (S *ᵥ z) i := congrFun e1 i
          have c : η0 (ι i) = (S *ᵥ z) i := congrFun (hres z) i
          rw [a, c, sub_self]
        rw [this, zero_dotProduct]
      have hx' : η0 ⬝ᵥ M *ᵥ (η - η0) = 0 := by
        rw [dotProduct_mulVec, ← mulVec_transpose, hMs, dotProduct_comm]
        exact hx
      have hpos : 0 ≤ (η - η0) ⬝ᵥ M *ᵥ (η - η0) := by
        have := hM.posSemidef.dotProduct_mulVec_nonneg (η - η0)
        simpa using this
      have hsplit : η ⬝ᵥ M *ᵥ η = η0 ⬝ᵥ M *ᵥ η0 + (η - η0) ⬝ᵥ M *ᵥ (η - η0) := by
        conv_lhs => rw [show η = η0 + (η - η0) by abel]
        rw [mulVec_add, add_dotProduct, dotProduct_add, dotProduct_add, hx, hx']
        ring
      rw [hsplit, hval]
      linarith
  have hGs : G⁻¹ᵀ = G⁻¹ := psd_symm hG.inv.posSemidef
  have hSG : S * G⁻¹ * S = S := by
    refine symm_ext ?_ hSs fun z => ?_
    · rw [transpose_mul, transpose_mul, hSs, hGs, Matrix.mul_assoc]
    · rw [← hmin z]
      unfold mahal
      rw [Matrix.mul_assoc, ← mulVec_mulVec, ← mulVec_mulVec, dotProduct_mulVec, ← mulVec_transpose, hSs]
  have hSpd : S.PosDef := hMi.submatrix hι
  have hSd := unit_of_det (pd_det hSpd)
  have h3 : S * G⁻¹ = 1 := by
    have := congrArg (· * S⁻¹) hSG
    simp only [Matrix.mul_assoc, mul_nonsing_inv _ hSd, Matrix.mul_one] at this
    exact this
  have h4 : S = G := by
    have := congrArg (· * G) h3
    simp only [Matrix.mul_assoc, nonsing_inv_mul _ (unit_of_det (pd_det hG)), Matrix.mul_one, Matrix.one_mul] at this
    exact this
  intro i j
  rw [← h4]
  rfl

/-- A positive definite distance that stays bounded along a line does not move. -/
theorem mahal_bounded {m : ℕ} {R : Mat m m} (hR : R.PosDef) {w c : Vec m} {K : ℝ}
    (h : ∀ s : ℝ, mahal R (s • w + c) ≤ K) : w = 0 := by
  by_contra hw
  have ha := mahal_pos hR hw
  have hs := psd_symm hR.inv.posSemidef
  have hexp : ∀ s : ℝ, mahal R (s • w + c) = s ^ 2 * mahal R w + 2 * s * (w ⬝ᵥ R⁻¹ *ᵥ c) + mahal R c := by
    intro s
    unfold mahal
    have e : c ⬝ᵥ R⁻¹ *ᵥ w = w ⬝ᵥ R⁻¹ *ᵥ c := by
      rw [dotProduct_mulVec, ← mulVec_transpose, hs, dotProduct_comm]
    rw [mulVec_add, add_dotProduct, dotProduct_add, dotProduct_add, mulVec_smul, smul_dotProduct, dotProduct_smul,
      dotProduct_smul, smul_dotProduct, e]
    simp only [smul_eq_mul]
    ring
  set α := mahal R w with hα
  set β := w ⬝ᵥ R⁻¹ *ᵥ c with hβ
  set γ := mahal R c with hγ
  have h1 := h ((1 + |β| + |K| + |γ|) / α + 1)
  rw [hexp] at h1
  have hα0 : α ≠ 0 := ha.ne'
  set q := 1 + |β| + |K| + |γ| with hq
  have hq1 : 1 ≤ q := by
    have := abs_nonneg β
    have := abs_nonneg K
    have := abs_nonneg γ
    rw [hq]; linarith
  have hA := h ((2 * q) / α + 1)
  rw [hexp] at hA
  have hB := h (-((2 * q) / α + 1))
  rw [hexp] at hB
  set s := (2 * q) / α + 1 with hs'
  have hsa : s * α = 2 * q + α := by rw [hs']; field_simp
  have hs1 : 1 ≤ s := by
    have : 0 ≤ 2 * q / α := by positivity
    rw [hs']; linarith
  have hsum : s ^ 2 * α + γ ≤ K := by nlinarith [hA, hB]
  have hγ' := neg_abs_le γ
  have hK' := le_abs_self K
  have hs2 : s ^ 2 * α = s * (2 * q + α) := by rw [← hsa]; ring
  have hqq : |K| + |γ| + 1 ≤ q := by
    have := abs_nonneg β
    rw [hq]; linarith
  have : q ≤ s * (2 * q + α) := by nlinarith
  linarith

end Verif
