import Verif.Model.Basic
import Mathlib.Analysis.Normed.Algebra.Exponential
import Mathlib.Topology.Instances.Matrix

/-!
`van_loans` (`navlie/utils/common.py:202-257`).
-/

namespace Verif

open Matrix

variable {n m : ℕ}

/-- The index set of the `4N × 4N` matrix: four consecutive ranges of `N` indices. -/
abbrev Four (n : ℕ) : Type := (Fin n ⊕ Fin n) ⊕ (Fin n ⊕ Fin n)

/-- `common.py:246-248`: `block_diag(A_c, -A_c.T, A_c, 0)` with `L_c Q_c L_c^T` written to the second block of the first
row. Matrices of sizes that do not fit are not modelled (they raise in numpy). -/
def vanLoanXi (A : Mat n n) (L : Mat n m) (Q : Mat m m) : Matrix (Four n) (Four n) ℝ :=
  fromBlocks (fromBlocks A (L * Q * Lᵀ) 0 (-Aᵀ)) 0 0 (fromBlocks A 0 0 0)

/-- `common.py:249`: `Upsilon = expm(Xi * dt)`; `scipy.linalg.expm` is the matrix exponential. -/
noncomputable def vanLoanUpsilon (A : Mat n n) (L : Mat n m) (Q : Mat m m) (dt : ℝ) : Matrix (Four n) (Four n) ℝ :=
  NormedSpace.exp (dt • vanLoanXi A L Q)

/-- `common.py:202-257` (`van_loans`): the pair `A_d`, `Q_d`. -/
noncomputable def vanLoans (A : Mat n n) (L : Mat n m) (Q : Mat m m) (dt : ℝ) : Mat n n × Mat n n :=
  let Ad : Mat n n := (vanLoanUpsilon A L Q dt).toBlocks₁₁.toBlocks₁₁
  let U12 : Mat n n := (vanLoanUpsilon A L Q dt).toBlocks₁₁.toBlocks₁₂
  (Ad, U12 * Adᵀ)

end Verif
