import Verif.Lemmas.Info
import Mathlib.MeasureTheory.Function.L2Space
import Mathlib.MeasureTheory.Integral.Bochner.Basic

/-!
Random vectors with finite second moments: means and second moments, and how linear maps act on them.
-/

set_option linter.unusedSectionVars false
set_option linter.unusedVariables false

namespace Verif

open Matrix MeasureTheory

variable {Ω : Type} [MeasurableSpace Ω] {m k l : ℕ}

/-- Every component is measurable and square integrable. -/
def SqInt (μ : Measure Ω) (X : Ω → Vec m) : Prop := ∀ i, MemLp (fun ω => X ω i) 2 μ

/-- The mean `E[X]`. -/
noncomputable def rvMean (μ : Measure Ω) (X : Ω → Vec m) : Vec m := fun i => ∫ ω, X ω i ∂μ

/-- The matrix `E[X Yᵀ]`. -/
noncomputable def rvCross (μ : Measure Ω) (X : Ω → Vec m) (Y : Ω → Vec k) : Mat m k :=
  fun i j => ∫ ω, X ω i * Y ω j ∂μ

variable {μ : Measure Ω} {X X' : Ω → Vec m} {Y : Ω → Vec k}

theorem SqInt.add (h : SqInt μ X) (h' : SqInt μ X') : SqInt μ (fun ω => X ω + X' ω) := fun i => (h i).add (h' i)

theorem SqInt.sub (h : SqInt μ X) (h' : SqInt μ X') : SqInt μ (fun ω => X ω - X' ω) := fun i => (h i).sub (h' i)

theorem SqInt.mulVec (h : SqInt μ X) (A : Mat k m) : SqInt μ (fun ω => A *ᵥ X ω) := by
  intro i
  have := memLp_finsetSum (μ := μ) (p := 2) (f := fun (j : Fin m) ω => A i j * X ω j) Finset.univ
    (fun j _ => (h j).const_mul (A i j))
  exact this

theorem SqInt.const [IsFiniteMeasure μ] (c : Vec m) : SqInt μ (fun _ : Ω => c) := fun i => memLp_const _

theorem SqInt.int_mul {f g : Ω → ℝ} (h : MemLp f 2 μ) (h' : MemLp g 2 μ) : Integrable (fun ω => f ω * g ω) μ :=
  h.integrable_mul h'

theorem rvCross_add_left (h : SqInt μ X) (h' : SqInt μ X') (hY : SqInt μ Y) :
    rvCross μ (fun ω => X ω + X' ω) Y = rvCross μ X Y + rvCross μ X' Y := by
  ext i j
  show ∫ ω, (X ω i + X' ω i) * Y ω j ∂μ = ∫ ω, X ω i * Y ω j ∂μ + ∫ ω, X' ω i * Y ω j ∂μ
  rw [← integral_add (SqInt.int_mul (h i) (hY j)) (SqInt.int_mul (h' i) (hY j))]
  congr 1; funext ω; ring

theorem rvCross_sub_left (h : SqInt μ X) (h' : SqInt μ X') (hY : SqInt μ Y) :
    rvCross μ (fun ω => X ω - X' ω) Y = rvCross μ X Y - rvCross μ X' Y := by
  ext i j
  show ∫ ω, (X ω i - X' ω i) * Y ω j ∂μ = ∫ ω, X ω i * Y ω j ∂μ - ∫ ω, X' ω i * Y ω j ∂μ
  rw [← integral_sub (SqInt.int_mul (h i) (hY j)) (SqInt.int_mul (h' i) (hY j))]
  congr 1; funext ω; ring

theorem rvCross_mulVec_left (h : SqInt μ X) (hY : SqInt μ Y) (A : Mat l m) :
    rvCross μ (fun ω => A *ᵥ X ω) Y = A * rvCross μ X Y := by
  ext i j
  show ∫ ω, (∑ q, A i q * X ω q) * Y ω j ∂μ = ∑ q, A i q * ∫ ω, X ω q * Y ω j ∂μ
  have e : (fun ω => (∑ q, A i q * X ω q) * Y ω j) = fun ω => ∑ q, A i q * (X ω q * Y ω j) := by
    funext ω
    rw [Finset.sum_mul]
    exact Finset.sum_congr rfl fun q _ => by ring
  rw [e, integral_finsetSum _ (fun q _ => (SqInt.int_mul (h q) (hY j)).const_mul _)]
  exact Finset.sum_congr rfl fun q _ => integral_const_mul _ _

theorem rvCross_symm (X : Ω → Vec m) (Y : Ω → Vec k) : rvCross μ Y X = (rvCross μ X Y)ᵀ := by
  ext i j
  show ∫ ω, Y ω i * X ω j ∂μ = ∫ ω, X ω j * Y ω i ∂μ
  congr 1; funext ω; ring

theorem rvMean_add [IsFiniteMeasure μ] (h : SqInt μ X) (h' : SqInt μ X') :
    rvMean μ (fun ω => X ω + X' ω) = rvMean μ X + rvMean μ X' := by
  funext i
  exact integral_add ((h i).integrable (by norm_num)) ((h' i).integrable (by norm_num))

theorem rvMean_sub [IsFiniteMeasure μ] (h : SqInt μ X) (h' : SqInt μ X') :
    rvMean μ (fun ω => X ω - X' ω) = rvMean μ X - rvMean μ X' := by
  funext i
  exact integral_sub ((h i).integrable (by norm_num)) ((h' i).integrable (by norm_num))

theorem rvMean_mulVec [IsFiniteMeasure μ] (h : SqInt μ X) (A : Mat l m) :
    rvMean μ (fun ω => A *ᵥ X ω) = A *ᵥ rvMean μ X := by
  funext i
  show ∫ ω, (∑ q, A i q * X ω q) ∂μ = ∑ q, A i q * ∫ ω, X ω q ∂μ
  rw [integral_finsetSum _ (fun q _ => ((h q).integrable (by norm_num)).const_mul _)]
  exact Finset.sum_congr rfl fun q _ => integral_const_mul _ _

theorem rvCross_add_right (h : SqInt μ X) (h' : SqInt μ X') (hY : SqInt μ Y) :
    rvCross μ Y (fun ω => X ω + X' ω) = rvCross μ Y X + rvCross μ Y X' := by
  rw [rvCross_symm (fun ω => X ω + X' ω) Y, rvCross_add_left h h' hY, transpose_add, ← rvCross_symm, ← rvCross_symm]

theorem rvCross_sub_right (h : SqInt μ X) (h' : SqInt μ X') (hY : SqInt μ Y) :
    rvCross μ Y (fun ω => X ω - X' ω) = rvCross μ Y X - rvCross μ Y X' := by
  rw [rvCross_symm (fun ω => X ω - X' ω) Y, rvCross_sub_left h h' hY, transpose_sub, ← rvCross_symm, ← rvCross_symm]

theorem rvCross_mulVec_right (h : SqInt μ X) (hY : SqInt μ Y) (A : Mat l m) :
    rvCross μ Y (fun ω => A *ᵥ X ω) = rvCross μ Y X * Aᵀ := by
  rw [rvCross_symm (fun ω => A *ᵥ X ω) Y, rvCross_mulVec_left h hY, transpose_mul, ← rvCross_symm]

/-- The second moment of a linear combination of two uncorrelated vectors. -/
theorem rvCross_comb (h : SqInt μ X) (hY : SqInt μ Y) (h0 : rvCross μ X Y = 0) (A : Mat l m) (B : Mat l k) :
    rvCross μ (fun ω => A *ᵥ X ω + B *ᵥ Y ω) (fun ω => A *ᵥ X ω + B *ᵥ Y ω)
      = A * rvCross μ X X * Aᵀ + B * rvCross μ Y Y * Bᵀ := by
  have h0' : rvCross μ Y X = 0 := by rw [rvCross_symm X Y, h0, transpose_zero]
  rw [rvCross_add_left (h.mulVec A) (hY.mulVec B) ((h.mulVec A).add (hY.mulVec B)),
    rvCross_add_right (h.mulVec A) (hY.mulVec B) (h.mulVec A), rvCross_add_right (h.mulVec A) (hY.mulVec B) (hY.mulVec B),
    rvCross_mulVec_left h (h.mulVec A), rvCross_mulVec_left h (hY.mulVec B), rvCross_mulVec_left hY (h.mulVec A),
    rvCross_mulVec_left hY (hY.mulVec B), rvCross_mulVec_right h h, rvCross_mulVec_right hY h, rvCross_mulVec_right h hY,
    rvCross_mulVec_right hY hY, h0, h0']
  simp [Matrix.mul_assoc]

/-- A second moment is positive semidefinite. -/
theorem rvCross_psd (h : SqInt μ X) : (rvCross μ X X).PosSemidef := by
  refine psd_of_dot (rvCross_symm X X).symm fun v => ?_
  have e1 : (of fun _ j => v j : Mat 1 m) * rvCross μ X X * (of fun _ j => v j : Mat 1 m)ᵀ
      = rvCross μ (fun ω => (of fun _ j => v j : Mat 1 m) *ᵥ X ω) (fun ω => (of fun _ j => v j : Mat 1 m) *ᵥ X ω) := by
    rw [rvCross_mulVec_left h (h.mulVec _), rvCross_mulVec_right h h, Matrix.mul_assoc]
  have e2 : v ⬝ᵥ rvCross μ X X *ᵥ v
      = ((of fun _ j => v j : Mat 1 m) * rvCross μ X X * (of fun _ j => v j : Mat 1 m)ᵀ) 0 0 := by
    rw [dotProduct_mulVec]
    rfl
  rw [e2, e1]
  exact integral_nonneg fun ω => mul_self_nonneg _

end Verif
