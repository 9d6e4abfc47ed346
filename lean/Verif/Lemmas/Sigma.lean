import Verif.Model.Sigma
import Verif.Lemmas.Info
import Verif.Lemmas.Iekf
import Mathlib.LinearAlgebra.Matrix.SchurComplement
import Mathlib.Algebra.BigOperators.Fin
import Mathlib.Data.Matrix.ColumnRowPartitioned
import Mathlib.Algebra.Order.BigOperators.Group.Finset

set_option linter.unusedVariables false
set_option linter.unusedSectionVars false

namespace Verif

open Matrix

section wsum
variable {α β M N : Type} [AddCommGroup M] [Module ℝ M] [AddCommGroup N] [Module ℝ N]

theorem wsum_nil (f : α → M) : wsum [] f = 0 := rfl

theorem wsum_cons (p : ℝ × α) (l : Weighted α) (f : α → M) :
    wsum (p :: l) f = p.1 • f p.2 + wsum l f := by
  simp [wsum]

theorem wsum_append (l l' : Weighted α) (f : α → M) : wsum (l ++ l') f = wsum l f + wsum l' f := by
  simp [wsum]

theorem wsum_map (l : Weighted α) (g : α → β) (f : β → M) :
    wsum (l.map fun p => (p.1, g p.2)) f = wsum l (fun a => f (g a)) := by
  simp [wsum, Function.comp_def]

theorem wsum_linear (φ : M →ₗ[ℝ] N) (l : Weighted α) (f : α → M) :
    wsum l (fun a => φ (f a)) = φ (wsum l f) := by
  induction l with
  | nil => simp [wsum]
  | cons p l ih => rw [wsum_cons, wsum_cons, ih, map_add, map_smul]

theorem wsum_add (l : Weighted α) (f g : α → M) :
    wsum l (fun a => f a + g a) = wsum l f + wsum l g := by
  induction l with
  | nil => simp [wsum]
  | cons p l ih => simp only [wsum_cons]; rw [ih, smul_add]; abel

theorem wsum_sub (l : Weighted α) (f g : α → M) :
    wsum l (fun a => f a - g a) = wsum l f - wsum l g := by
  induction l with
  | nil => simp [wsum]
  | cons p l ih => simp only [wsum_cons]; rw [ih, smul_sub]; abel

theorem wsum_const (l : Weighted α) (c : M) :
    wsum l (fun _ => c) = (wsum l fun _ => (1 : ℝ)) • c := by
  induction l with
  | nil => simp [wsum]
  | cons p l ih => simp only [wsum_cons]; rw [ih, add_smul]; simp

theorem wsum_congr (l : Weighted α) (f g : α → M) (h : ∀ p ∈ l, f p.2 = g p.2) :
    wsum l f = wsum l g := by
  induction l with
  | nil => rfl
  | cons p l ih =>
    rw [wsum_cons, wsum_cons, h p (by simp), ih fun q hq => h q (by simp [hq])]

theorem wsum_finRange {n : ℕ} (w : Fin n → ℝ) (g : Fin n → α) (f : α → M) :
    wsum ((List.finRange n).map fun i => (w i, g i)) f = ∑ i, w i • f (g i) := by
  simp only [wsum, List.map_map, Function.comp_def]
  rw [← List.ofFn_eq_map, List.sum_ofFn]

end wsum

/-! moments -/

/-- weights sum to one, zero mean, identity second moment -/
def Moments {n : ℕ} (σ : Weighted (Vec n)) : Prop :=
  wsum σ (fun _ => (1 : ℝ)) = 1 ∧ wsum σ (fun s => s) = 0 ∧
    wsum σ (fun s => vecMulVec s s) = (1 : Mat n n)

theorem vecMulVec_unit {n : ℕ} (c : ℝ) (i : Fin n) :
    vecMulVec (c • unitVec i) (c • unitVec i) = (c * c) • (Matrix.single i i 1 : Mat n n) := by
  ext a b
  simp only [vecMulVec_apply, unitVec, Pi.smul_apply, smul_eq_mul, Matrix.smul_apply,
    Matrix.single_apply, Pi.single_apply]
  by_cases ha : a = i <;> by_cases hb : b = i <;> simp [ha, hb, @eq_comm _ i]

theorem sum_single_one {n : ℕ} : ∑ i : Fin n, (Matrix.single i i 1 : Mat n n) = 1 := by
  ext a b
  simp only [Matrix.sum_apply, Matrix.single_apply, Matrix.one_apply]
  by_cases h : a = b
  · subst h; simp
  · rw [if_neg h]
    apply Finset.sum_eq_zero
    intro i _
    rw [if_neg]
    rintro ⟨rfl, rfl⟩; exact h rfl

theorem unscented_moments (n : ℕ) : Moments (unscentedPoints n) := by
  have hn : (0 : ℝ) < n + 2 := by positivity
  have hs : Real.sqrt ((n : ℝ) + 2) * Real.sqrt ((n : ℝ) + 2) = n + 2 := Real.mul_self_sqrt hn.le
  unfold unscentedPoints Moments
  refine ⟨?_, ?_, ?_⟩
  · simp only [wsum_cons, wsum_append, wsum_finRange]
    simp
    field_simp
    ring
  · simp only [wsum_cons, wsum_append, wsum_finRange]
    simp [Finset.sum_neg_distrib]
  · simp only [wsum_cons, wsum_append, wsum_finRange, smul_neg, neg_vecMulVec, vecMulVec_neg, neg_neg,
      vecMulVec_unit, hs]
    rw [← Finset.sum_add_distrib]
    simp only [smul_smul, ← add_smul, ← Finset.smul_sum, sum_single_one]
    simp
    have : (((n : ℝ) + 2)⁻¹ * 2⁻¹ * (n + 2) + ((n : ℝ) + 2)⁻¹ * 2⁻¹ * (n + 2)) = 1 := by
      field_simp; norm_num
    rw [this, one_smul]

theorem cubature_moments (n : ℕ) (h0 : n ≠ 0) : Moments (cubaturePoints n) := by
  have hn : (0 : ℝ) < n := by positivity
  have hs : Real.sqrt (n : ℝ) * Real.sqrt (n : ℝ) = n := Real.mul_self_sqrt hn.le
  unfold cubaturePoints Moments
  refine ⟨?_, ?_, ?_⟩
  · simp only [wsum_append, wsum_finRange]
    simp
    field_simp
    norm_num
  · simp only [wsum_append, wsum_finRange]
    simp [Finset.sum_neg_distrib]
  · simp only [wsum_append, wsum_finRange, smul_neg, neg_vecMulVec, vecMulVec_neg, neg_neg,
      vecMulVec_unit, hs]
    rw [← Finset.sum_add_distrib]
    simp only [smul_smul, ← add_smul, ← Finset.smul_sum, sum_single_one]
    have : ((1 / (2 * (n : ℝ))) * n + (1 / (2 * (n : ℝ))) * n) = 1 := by
      field_simp; norm_num
    rw [this, one_smul]

theorem ghWeight_val : ghWeight 0 = 1 / 6 ∧ ghWeight 1 = 2 / 3 ∧ ghWeight 2 = 1 / 6 := by
  have h3 : Real.sqrt 3 ^ 2 = 3 := Real.sq_sqrt (by norm_num)
  refine ⟨?_, ?_, ?_⟩ <;> simp [ghWeight, ghRoot, h3] <;> norm_num

theorem gh0 : ∑ i, ghWeight i = 1 := by
  obtain ⟨h0, h1, h2⟩ := ghWeight_val
  rw [Fin.sum_univ_three, h0, h1, h2]; norm_num

theorem gh1 : ∑ i, ghWeight i * ghRoot i = 0 := by
  obtain ⟨h0, h1, h2⟩ := ghWeight_val
  rw [Fin.sum_univ_three, h0, h1, h2]; simp [ghRoot]

theorem gh2 : ∑ i, ghWeight i * (ghRoot i * ghRoot i) = 1 := by
  obtain ⟨h0, h1, h2⟩ := ghWeight_val
  have h3 : Real.sqrt 3 * Real.sqrt 3 = 3 := Real.mul_self_sqrt (by norm_num)
  rw [Fin.sum_univ_three, h0, h1, h2]; simp [ghRoot, h3]; norm_num

theorem ghRoot_root (i : Fin 3) : ghRoot i ^ 3 - 3 * ghRoot i = 0 := by
  have h3 : Real.sqrt 3 ^ 2 = 3 := Real.sq_sqrt (by norm_num)
  have h4 : Real.sqrt 3 ^ 3 = 3 * Real.sqrt 3 := by rw [pow_succ, h3]
  fin_cases i
  · show (-Real.sqrt 3) ^ 3 - 3 * (-Real.sqrt 3) = 0
    have : (-Real.sqrt 3) ^ 3 = - Real.sqrt 3 ^ 3 := by ring
    rw [this, h4]; ring
  · simp [ghRoot]
  · simp [ghRoot, h4]

/-- the product rule: sums over the base-3 grid factor -/
theorem gh_sum {n : ℕ} (g : Fin n → Fin 3 → ℝ) :
    ((List.range (3 ^ n)).map fun k => ∏ j : Fin n, g j (ghDigit k j)).sum = ∏ j, ∑ d, g j d := by
  rw [← List.map_coe_finRange_eq_range, List.map_map]
  have : ((List.finRange (3 ^ n)).map
      ((fun k => ∏ j : Fin n, g j (ghDigit k j)) ∘ Fin.val)).sum
      = ∑ k : Fin (3 ^ n), ∏ j : Fin n, g j (ghDigit k j) := by
    rw [← List.ofFn_eq_map, List.sum_ofFn]; rfl
  rw [this, ← Equiv.sum_comp finFunctionFinEquiv]
  rw [Finset.prod_univ_sum, Fintype.piFinset_univ]
  refine Finset.sum_congr rfl fun p _ => Finset.prod_congr rfl fun j _ => ?_
  congr 1
  have h := congrFun (finFunctionFinEquiv.symm_apply_apply p) j
  rw [← h]
  rfl

theorem wsum_gh {n : ℕ} (f : Vec n → ℝ) (g : Fin n → Fin 3 → ℝ)
    (h : ∀ k : ℕ, (∏ j : Fin n, ghWeight (ghDigit k j)) * f (fun j => ghRoot (ghDigit k j))
      = ∏ j : Fin n, g j (ghDigit k j)) :
    wsum (ghPoints n) f = ∏ j, ∑ d, g j d := by
  rw [← gh_sum]
  simp only [wsum, ghPoints, List.map_map, Function.comp_def, smul_eq_mul, h]

theorem gh_moments (n : ℕ) : Moments (ghPoints n) := by
  refine ⟨?_, ?_, ?_⟩
  · rw [wsum_gh _ (fun _ d => ghWeight d) (by intro k; simp)]
    simp [gh0]
  · funext a
    have := wsum_linear (LinearMap.proj (R := ℝ) a : Vec n →ₗ[ℝ] ℝ) (ghPoints n) (fun s => s)
    simp only [LinearMap.proj_apply] at this
    rw [← this, wsum_gh _ (fun j d => ghWeight d * if j = a then ghRoot d else 1)]
    · rw [Finset.prod_eq_zero (Finset.mem_univ a)]
      · rfl
      · simp [gh1]
    · intro k
      rw [Finset.prod_mul_distrib]
      congr 1
      rw [Finset.prod_ite_eq']; simp
  · ext a b
    have := wsum_linear (Matrix.entryLinearMap ℝ ℝ a b : Mat n n →ₗ[ℝ] ℝ) (ghPoints n)
      (fun s => vecMulVec s s)
    simp only [Matrix.entryLinearMap_apply] at this
    rw [← this, wsum_gh _ (fun j d => ghWeight d * ((if j = a then ghRoot d else 1) *
      (if j = b then ghRoot d else 1)))]
    · by_cases hab : a = b
      · subst hab
        rw [Matrix.one_apply_eq]
        apply Finset.prod_eq_one
        intro j _
        by_cases hj : j = a
        · simp [hj, gh2]
        · simp [hj, gh0]
      · rw [Matrix.one_apply_ne hab, Finset.prod_eq_zero (Finset.mem_univ a)]
        simp [hab, gh1]
    · intro k
      rw [Finset.prod_mul_distrib, Finset.prod_mul_distrib]
      congr 1
      rw [Finset.prod_ite_eq', Finset.prod_ite_eq']; simp [vecMulVec_apply]

theorem unscented_pos (n : ℕ) : ∀ p ∈ unscentedPoints n, 0 < p.1 := by
  intro p hp
  simp only [unscentedPoints, List.mem_cons, List.mem_append, List.mem_map] at hp
  rcases hp with rfl | ⟨i, _, rfl⟩ | ⟨i, _, rfl⟩ <;> positivity

theorem cubature_pos (n : ℕ) (h : n ≠ 0) : ∀ p ∈ cubaturePoints n, 0 < p.1 := by
  intro p hp
  have : (0 : ℝ) < n := by positivity
  simp only [cubaturePoints, List.mem_append, List.mem_map] at hp
  rcases hp with ⟨i, _, rfl⟩ | ⟨i, _, rfl⟩ <;> positivity

theorem gh_pos (n : ℕ) : ∀ p ∈ ghPoints n, 0 < p.1 := by
  intro p hp
  simp only [ghPoints, List.mem_map] at hp
  obtain ⟨k, _, rfl⟩ := hp
  show 0 < ∏ j : Fin n, ghWeight (ghDigit k j)
  refine Finset.prod_pos fun j _ => ?_
  obtain ⟨h0, h1, h2⟩ := ghWeight_val
  have : ∀ d : Fin 3, 0 < ghWeight d := by
    intro d; fin_cases d
    · show 0 < ghWeight 0; rw [h0]; norm_num
    · show 0 < ghWeight 1; rw [h1]; norm_num
    · show 0 < ghWeight 2; rw [h2]; norm_num
  exact this _

theorem generate_ok {n : ℕ} {method : String} {σ : Weighted (Vec n)}
    (h : generateSigmapoints n method = .ok σ) : Moments σ ∧ (∀ p ∈ σ, 0 < p.1) ∧ σ ≠ [] := by
  have hne : ∀ σ : Weighted (Vec n), Moments σ → σ ≠ [] := by
    rintro σ hm rfl
    simpa [wsum] using hm.1
  unfold generateSigmapoints at h
  split_ifs at h with h1 h2 h3 h4 h5 <;> cases h
  · exact ⟨unscented_moments n, unscented_pos n, hne _ (unscented_moments n)⟩
  · exact ⟨cubature_moments n h3, cubature_pos n h3, hne _ (cubature_moments n h3)⟩
  · exact ⟨gh_moments n, gh_pos n, hne _ (gh_moments n)⟩

theorem generate_total {n : ℕ} (hn : n ≠ 0) {method : String}
    (h : method ∈ ["unscented", "cubature", "gh"]) :
    ∃ σ, generateSigmapoints n method = .ok σ := by
  unfold generateSigmapoints
  simp only [List.mem_cons, List.not_mem_nil, or_false] at h
  rcases h with rfl | rfl | rfl <;> simp [hn]

/-! Cholesky -/

theorem lowerSym_eq {n : ℕ} {P : Mat n n} (h : Pᵀ = P) : lowerSym P = P := by
  ext i j
  unfold lowerSym
  split
  · rfl
  · exact congrFun (congrFun h i) j

theorem chol_ok_iff {n : ℕ} {P L : Mat n n} (h : npCholesky P = .ok L) :
    (lowerSym P).PosDef ∧ L * Lᵀ = lowerSym P := by
  unfold npCholesky at h
  split at h
  · rename_i hP
    simp only [Except.ok.injEq] at h
    refine ⟨hP, ?_⟩
    subst h
    have hd : ∀ i, 0 ≤ LDL.diagEntries hP i := by
      intro i
      have h1 : (LDL.diag hP).PosSemidef := by
        rw [LDL.diag_eq_lowerInv_conj]
        exact hP.posSemidef.mul_mul_conjTranspose_same _
      have := posSemidef_diagonal_iff.1 h1 i
      exact this
    rw [transpose_mul, diagonal_transpose]
    calc _ = LDL.lower hP * (diagonal (fun i => Real.sqrt (LDL.diagEntries hP i)) *
          diagonal (fun i => Real.sqrt (LDL.diagEntries hP i))) * (LDL.lower hP)ᵀ := by
            simp only [Matrix.mul_assoc]
      _ = LDL.lower hP * LDL.diag hP * (LDL.lower hP)ᴴ := by
            rw [diagonal_mul_diagonal, conjTranspose_eq_transpose_of_trivial]
            congr 3
            ext i
            exact Real.mul_self_sqrt (hd i)
      _ = _ := LDL.lower_conj_diag hP
  · cases h

theorem chol_ok {n : ℕ} {P : Mat n n} (h : P.PosDef) :
    ∃ L, npCholesky P = .ok L ∧ L * Lᵀ = P := by
  have hs : lowerSym P = P := lowerSym_eq (psd_symm h.posSemidef)
  unfold npCholesky
  have h' : (lowerSym P).PosDef := by rw [hs]; exact h
  rw [dif_pos h']
  have := chol_ok_iff (P := P) (L := LDL.lower h' * diagonal fun i => Real.sqrt (LDL.diagEntries h' i))
    (by unfold npCholesky; rw [dif_pos h'])
  exact ⟨_, rfl, by rw [this.2, hs]⟩

theorem blockDiag2_pd {n k : ℕ} {P : Mat n n} {Q : Mat k k} (hP : P.PosDef) (hQ : Q.PosDef) :
    (blockDiag2 P Q).PosDef := by
  unfold blockDiag2
  have : (fromBlocks P 0 0 Q).PosDef := by
    have hu : IsUnit P.det := (pd_det hP).isUnit
    have : Invertible P := P.invertibleOfIsUnitDet hu
    have h : (fromBlocks P (0 : Mat n k) (0 : Mat n k)ᴴ Q).PosSemidef := by
      rw [Matrix.PosDef.fromBlocks₁₁ _ _ hP]
      simpa using hQ.posSemidef
    rw [conjTranspose_zero] at h
    refine psd_unit_pd h ?_
    rw [det_fromBlocks_zero₂₁]
    exact mul_ne_zero (pd_det hP) (pd_det hQ)
  exact this.submatrix finSumFinEquiv.symm.injective


/-! second-moment algebra -/

theorem mulVec_vecMulVec_T {n m k : ℕ} (T : Mat m n) (S : Mat k n) (s : Vec n) :
    vecMulVec (T *ᵥ s) (S *ᵥ s) = T * vecMulVec s s * Sᵀ := by
  rw [Matrix.mul_vecMulVec, Matrix.vecMulVec_mul, vecMul_transpose]

theorem wsum_conj {n m k : ℕ} (σ : Weighted (Vec n)) (T : Mat m n) (S : Mat k n)
    (h : wsum σ (fun s => vecMulVec s s) = (1 : Mat n n)) :
    wsum σ (fun s => vecMulVec (T *ᵥ s) (S *ᵥ s)) = T * Sᵀ := by
  have h1 : ∀ l : Weighted (Vec n), wsum l (fun s => vecMulVec (T *ᵥ s) (S *ᵥ s))
      = T * wsum l (fun s => vecMulVec s s) * Sᵀ := by
    intro l
    induction l with
    | nil => simp [wsum_nil]
    | cons p l ih =>
      rw [wsum_cons, wsum_cons, ih, mulVec_vecMulVec_T, Matrix.mul_add, Matrix.add_mul]
      simp
  rw [h1, h, Matrix.mul_one]

theorem wsum_mulVec {n m : ℕ} (σ : Weighted (Vec n)) (T : Mat m n)
    (h : wsum σ (fun s => s) = 0) : wsum σ (fun s => T *ᵥ s) = 0 := by
  have := wsum_linear (Matrix.mulVecLin T) σ (fun s => s)
  simp only [Matrix.mulVecLin_apply] at this
  rw [this, h, mulVec_zero]

/-- a nonnegatively weighted sum of outer products is PSD -/
theorem wsum_psd {α : Type} {m : ℕ} (l : Weighted α) (hw : ∀ p ∈ l, 0 ≤ p.1) (f : α → Vec m) :
    (wsum l fun a => vecMulVec (f a) (f a)).PosSemidef := by
  induction l with
  | nil => rw [wsum_nil]; exact PosSemidef.zero
  | cons p l ih =>
    rw [wsum_cons]
    refine psd_add (PosSemidef.smul ?_ (hw p (by simp))) (ih fun q hq => hw q (by simp [hq]))
    simpa using posSemidef_vecMulVec_self_star (f p.2)

/-! mean of vector states -/

theorem meanLoop_fixed {n : ℕ} (xs : Weighted (Vec n)) (h1 : wsum xs (fun _ => (1 : ℝ)) = 1)
    (fuel : ℕ) (e : ℝ) :
    meanLoop (fun x dx : Vec n => x + dx) (fun x y => x - y) xs fuel e (wsum xs fun x => x)
      = wsum xs fun x => x := by
  induction fuel generalizing e with
  | zero => rfl
  | succ k ih =>
    unfold meanLoop
    have : (wsum xs fun x => x - wsum xs fun x => x) = 0 := by
      rw [wsum_sub, wsum_const, h1, one_smul, sub_self]
    simp only [this, add_zero, ih, ite_self]

theorem meanLoop_vec {n : ℕ} (xs : Weighted (Vec n)) (h1 : wsum xs (fun _ => (1 : ℝ)) = 1)
    (fuel : ℕ) (m : Vec n) :
    meanLoop (fun x dx : Vec n => x + dx) (fun x y => x - y) xs (fuel + 1) 1 m
      = wsum xs fun x => x := by
  unfold meanLoop
  rw [if_pos (by norm_num)]
  have : m + (wsum xs fun x => x - m) = wsum xs fun x => x := by
    rw [wsum_sub, wsum_const, h1, one_smul]; abel
  simp only [this, meanLoop_fixed xs h1]

/-! joint state/input maps -/

/-- `[A B]` as an `n × (n + k)` matrix -/
def catCols {n k m : ℕ} (A : Mat m n) (B : Mat m k) : Mat m (n + k) :=
  (fromCols A B).submatrix id finSumFinEquiv.symm

theorem catCols_mulVec {n k m : ℕ} (A : Mat m n) (B : Mat m k) (v : Vec (n + k)) :
    catCols A B *ᵥ v = A *ᵥ spX v + B *ᵥ spU v := by
  funext i
  simp only [catCols, mulVec, dotProduct, Pi.add_apply, Fin.sum_univ_add, submatrix_apply, spX, spU,
    finSumFinEquiv_symm_apply_castAdd, finSumFinEquiv_symm_apply_natAdd, fromCols_apply_inl,
    fromCols_apply_inr, id]

theorem catCols_block {n k m : ℕ} (A : Mat m n) (B : Mat m k) (P : Mat n n) (Q : Mat k k) :
    catCols A B * blockDiag2 P Q * (catCols A B)ᵀ = A * P * Aᵀ + B * Q * Bᵀ := by
  unfold catCols blockDiag2
  rw [transpose_submatrix, submatrix_mul_equiv, submatrix_mul_equiv, submatrix_id_id,
    fromCols_mul_fromBlocks, transpose_fromCols, fromCols_mul_fromRows]
  simp

/-- Schur complement bound: the sigma-point posterior covariance. -/
theorem schur_psd {n m : ℕ} {P : Mat n n} {X : Mat n m} {Y R : Mat m m} (hR : R.PosDef)
    (hY : Y.PosSemidef) (hM : (fromBlocks P X Xᵀ Y).PosSemidef) :
    (P - X * (Y + R)⁻¹ * Xᵀ).PosSemidef := by
  have hD : (Y + R).PosDef := PosDef.posSemidef_add hY hR
  have : Invertible (Y + R) := (Y + R).invertibleOfIsUnitDet (pd_det hD).isUnit
  have h2 : (fromBlocks P X Xᴴ (Y + R)).PosSemidef := by
    have h3 : (fromBlocks (0 : Mat n n) (0 : Mat n m) (0 : Mat m n) R).PosSemidef := by
      apply psd_of_dot
      · rw [fromBlocks_transpose]; simp [psd_symm hR.posSemidef]
      · intro v
        have := psd_dot hR.posSemidef (v ∘ Sum.inr)
        simpa [fromBlocks_mulVec, dotProduct, Fintype.sum_sum_type] using this
    have h4 := psd_add hM h3
    rw [fromBlocks_add] at h4
    simpa [conjTranspose_eq_transpose_of_trivial] using h4
  rw [Matrix.PosDef.fromBlocks₂₂ _ _ hD] at h2
  simpa [conjTranspose_eq_transpose_of_trivial] using h2

theorem wsum_block {α : Type} {n m : ℕ} (l : Weighted α) (f : α → Vec n) (g : α → Vec m) :
    (wsum l fun a => vecMulVec (Sum.elim (f a) (g a)) (Sum.elim (f a) (g a)))
      = fromBlocks (wsum l fun a => vecMulVec (f a) (f a)) (wsum l fun a => vecMulVec (f a) (g a))
          (wsum l fun a => vecMulVec (f a) (g a))ᵀ (wsum l fun a => vecMulVec (g a) (g a)) := by
  induction l with
  | nil => simp [wsum_nil]
  | cons p l ih =>
    simp only [wsum_cons, ih]
    ext i j
    rcases i with i | i <;> rcases j with j | j <;> simp [vecMulVec_apply, mul_comm]

theorem wsum_block_psd {α : Type} {n m : ℕ} (l : Weighted α) (hw : ∀ p ∈ l, 0 ≤ p.1)
    (f : α → Vec n) (g : α → Vec m) :
    (fromBlocks (wsum l fun a => vecMulVec (f a) (f a)) (wsum l fun a => vecMulVec (f a) (g a))
      (wsum l fun a => vecMulVec (f a) (g a))ᵀ (wsum l fun a => vecMulVec (g a) (g a))).PosSemidef := by
  rw [← wsum_block]
  induction l with
  | nil => rw [wsum_nil]; exact PosSemidef.zero
  | cons p l ih =>
    rw [wsum_cons]
    refine psd_add (PosSemidef.smul ?_ (hw p (by simp))) (ih fun q hq => hw q (by simp [hq]))
    simpa using posSemidef_vecMulVec_self_star (Sum.elim (f p.2) (g p.2))

end Verif
