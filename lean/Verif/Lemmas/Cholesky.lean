import Verif.Lemmas.Sigma

/-!
The Cholesky factor of a multiple of a matrix.
-/

namespace Verif

open Matrix InnerProductSpace

section

variable {n : ℕ} {S : Mat n n}

/-- Row `i` of `LDL.lowerInv` is orthogonal, for the inner product of `S`, to the unit vectors before `i`. -/
theorem lowerInv_orth (hS : S.PosDef) {i j : Fin n} (h : j < i) : (Sᵀ *ᵥ Pi.single j 1) ⬝ᵥ LDL.lowerInv hS i = 0 := by
  have := @gramSchmidt_inv_triangular ℝ (Fin n → ℝ) _ (Sᵀ.toNormedAddCommGroup hS.transpose)
    (Sᵀ.toInnerProductSpace hS.transpose.posSemidef) (Fin n) _ _ _ (Pi.basisFun ℝ (Fin n)) j i h
  have h2 : (Sᵀ *ᵥ (Pi.basisFun ℝ (Fin n) j)) ⬝ᵥ star (LDL.lowerInv hS i) = 0 := this
  rw [Pi.basisFun_apply] at h2
  simpa using h2

theorem lowerInv_unit (hS : S.PosDef) (i : Fin n) : LDL.lowerInv hS i i = 1 := by
  let N := (Sᵀ.toNormedAddCommGroup hS.transpose)
  let I := (Sᵀ.toInnerProductSpace hS.transpose.posSemidef)
  have h := @gramSchmidt_def'' ℝ (Fin n → ℝ) _ N I (Fin n) _ _ _ (Pi.basisFun ℝ (Fin n)) i
  have h2 := congrFun h i
  have h3 : (Pi.basisFun ℝ (Fin n) i) i = 1 := by simp
  rw [h3] at h2
  have h4 : ∀ c : Fin n → ℝ, (∑ j ∈ Finset.Iio i, c j • @gramSchmidt ℝ (Fin n → ℝ) _ N I (Fin n) _ _ _ (Pi.basisFun ℝ (Fin n)) j) i = 0 := by
    intro c
    rw [Finset.sum_apply]
    refine Finset.sum_eq_zero fun j hj => ?_
    have : @gramSchmidt ℝ (Fin n → ℝ) _ N I (Fin n) _ _ _ (Pi.basisFun ℝ (Fin n)) j i = 0 :=
      LDL.lowerInv_triangular hS (Finset.mem_Iio.1 hj)
    rw [Pi.smul_apply, this, smul_zero]
  have h5 : (1 : ℝ) = LDL.lowerInv hS i i + 0 := h2.trans (congrArg₂ (· + ·) rfl (h4 _))
  rw [h5, add_zero]

/-- `LDL.lowerInv` is determined by these properties. -/
theorem lowerInv_unique (hS : S.PosDef) (W : Mat n n) (h1 : ∀ i, W i i = 1) (h2 : ∀ i j, i < j → W i j = 0)
    (h3 : ∀ i j, j < i → (Sᵀ *ᵥ Pi.single j 1) ⬝ᵥ W i = 0) : W = LDL.lowerInv hS := by
  funext i
  have hz : ∀ j, i ≤ j → (W i - LDL.lowerInv hS i) j = 0 := by
    intro j hj
    rw [Pi.sub_apply]
    rcases hj.eq_or_lt with rfl | hj
    · rw [h1, lowerInv_unit, sub_self]
    · rw [h2 i j hj, LDL.lowerInv_triangular hS hj, sub_self]
  have ho : ∀ j, j < i → (Sᵀ *ᵥ Pi.single j 1) ⬝ᵥ (W i - LDL.lowerInv hS i) = 0 := by
    intro j hj
    rw [dotProduct_sub, h3 i j hj, lowerInv_orth hS hj, sub_self]
  set d := W i - LDL.lowerInv hS i with hd
  have hq : d ⬝ᵥ (S *ᵥ d) = 0 := by
    rw [dotProduct]
    refine Finset.sum_eq_zero fun j _ => ?_
    by_cases hj : i ≤ j
    · rw [hz j hj, zero_mul]
    · have := ho j (lt_of_not_ge hj)
      rw [mulVec_transpose, ← dotProduct_mulVec, single_dotProduct, one_mul] at this
      rw [this, mul_zero]
  have : d = 0 := by
    by_contra hne
    have := hS.dotProduct_mulVec_pos hne
    rw [star_trivial, hq] at this
    exact lt_irrefl _ this
  exact sub_eq_zero.1 this

theorem lowerInv_smul (hS : S.PosDef) {c : ℝ} (h' : (c • S).PosDef) : LDL.lowerInv h' = LDL.lowerInv hS :=
  lowerInv_unique hS _ (lowerInv_unit h') (fun _ _ h => LDL.lowerInv_triangular h' h) fun i j h => by
    have hc : c ≠ 0 := by
      rintro rfl
      have := h'.dotProduct_mulVec_pos (x := Pi.single i 1) (by simp)
      rw [zero_smul, zero_mulVec, dotProduct_zero] at this
      exact lt_irrefl _ this
    have := lowerInv_orth h' h
    rw [transpose_smul, smul_mulVec, smul_dotProduct, smul_eq_zero] at this
    exact this.resolve_left hc

theorem lowerSym_smul (c : ℝ) (P : Mat n n) : lowerSym (c • P) = c • lowerSym P := by
  funext i j
  by_cases h : j ≤ i <;> simp [lowerSym, h]

theorem smul_pd_iff {c : ℝ} (hc : 0 < c) {A : Mat n n} : (c • A).PosDef ↔ A.PosDef := by
  constructor
  · intro h
    have := h.smul (inv_pos.2 hc)
    rwa [smul_smul, inv_mul_cancel₀ hc.ne', one_smul] at this
  · exact fun h => h.smul hc

/-- The Cholesky factor of `c P` is `√c` times that of `P`. -/
theorem npCholesky_smul {c : ℝ} (hc : 0 < c) (P : Mat n n) :
    npCholesky (c • P) = (npCholesky P).map fun L => (Real.sqrt c • L : Mat n n) := by
  unfold npCholesky
  by_cases h : (lowerSym P).PosDef
  · have h' : (lowerSym (c • P)).PosDef := by rw [lowerSym_smul]; exact (smul_pd_iff hc).2 h
    rw [dif_pos h, dif_pos h']
    show Except.ok _ = Except.ok _
    have key : ∀ (A B : Mat n n) (hA : A.PosDef) (hB : B.PosDef), B = c • A →
        LDL.lower hB * diagonal (fun i => Real.sqrt (LDL.diagEntries hB i))
          = Real.sqrt c • (LDL.lower hA * diagonal fun i => Real.sqrt (LDL.diagEntries hA i)) := by
      intro A B hA hB hAB
      subst hAB
      have e1 : LDL.lower hB = LDL.lower hA := by unfold LDL.lower; rw [lowerInv_smul hA hB]
      have e2 : ∀ i, LDL.diagEntries hB i = c * LDL.diagEntries hA i := by
        intro i
        unfold LDL.diagEntries
        rw [lowerInv_smul hA hB, EuclideanSpace.inner_toLp_toLp, EuclideanSpace.inner_toLp_toLp, smul_mulVec, smul_dotProduct,
          smul_eq_mul]
      rw [e1, ← Matrix.mul_smul]
      congr 1
      rw [← diagonal_smul]
      congr 1
      funext i
      rw [e2, Real.sqrt_mul hc.le]
      rfl
    rw [key _ _ h h' (lowerSym_smul c P)]
  · have h' : ¬ (lowerSym (c • P)).PosDef := by rw [lowerSym_smul]; exact mt (smul_pd_iff hc).1 h
    rw [dif_neg h, dif_neg h']
    rfl

end

end Verif
