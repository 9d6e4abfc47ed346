import Verif.Model.Ekf
import Mathlib.Analysis.SpecialFunctions.Exp
import Mathlib.Analysis.SpecialFunctions.Trigonometric.Basic
import Mathlib.Analysis.Real.Sqrt

/-!
Gaussian mixing (`navlie/utils/mixture.py`), the interacting multiple model filter and the Gaussian sum
filter (`navlie/filters.py:823-1106`). Lists of `M` components are functions on `Fin M`
(simplification: `len(kf_list)`, the transition matrix and the mixture agree on `M`).
-/

namespace Verif

open Matrix

variable {V U : Type} {n M : ℕ}

/-- Evaluate a raising computation for every component in order; the first exception wins. -/
def seqFin {α : Type} : (M : ℕ) → (Fin M → Except Err α) → Except Err (Fin M → α)
  | 0, _ => .ok Fin.elim0
  | M + 1, f => do
    let a ← f 0
    let r ← seqFin M fun i => f i.succ
    return Fin.cons a r

/-- `navlie/utils/mixture.py:14-47` (`gaussian_mixing_vectorspace`). -/
noncomputable def mixVec (w : Fin M → ℝ) (μ : Fin M → Vec n) (P : Fin M → Mat n n) : Vec n × Mat n n :=
  let xbar : Vec n := ∑ i, w i • μ i
  (xbar, ∑ i, (w i • P i + w i • vecMulVec (μ i - xbar) (μ i - xbar)))

/-- State operations used by the mixing code: `minus`, `minus_jacobian`, `plus`, `plus_jacobian`. -/
structure ManifoldOps (V : Type) (n : ℕ) where
  plus : V → Vec n → V
  minus : V → V → Vec n
  minusJac : V → V → Mat n n
  plusJac : V → Vec n → Mat n n

/-- `VectorState` (`navlie/lib/states.py:21-55` and the identity Jacobians of `VectorState`). -/
def vecOps (n : ℕ) : ManifoldOps (Vec n) n where
  plus x dx := x + dx
  minus x y := x - y
  minusJac _ _ := 1
  plusJac _ _ := 1

open Classical in
/-- `np.argmax(np.array(weights))`: the first index of the maximum; `ValueError` on an empty list. -/
noncomputable def argmaxFirst (w : Fin M → ℝ) : Except Err (Fin M) :=
  match (List.finRange M).find? (fun i => decide (∀ j, w j ≤ w i)) with
  | some i => .ok i
  | none => .error .valueError

/-- `navlie/utils/mixture.py:50-138` with the reference state `X_par` given: reparametrize
(`mu = X.minus(X_par)`, `Sigma = Jinv P Jinv^T`), mix in the tangent space, and map back (`update_X`). -/
noncomputable def mixAbout (ops : ManifoldOps V n) (xpar : St V) (w : Fin M → ℝ)
    (xs : Fin M → SWC V n) : SWC V n :=
  let mu : Fin M → Vec n := fun i => ops.minus (xs i).state.value xpar.value
  let Sig : Fin M → Mat n n := fun i =>
    let Jinv := ops.minusJac (xs i).state.value xpar.value
    Jinv * (xs i).cov * Jinvᵀ
  let m := mixVec w mu Sig
  let J := ops.plusJac xpar.value m.1
  { state := { xpar with value := ops.plus xpar.value m.1 }
    cov := J * m.2 * Jᵀ }

/-- `navlie/utils/mixture.py:118-138` (`gaussian_mixing`): the reference is the heaviest component. -/
noncomputable def gaussianMixing (ops : ManifoldOps V n) (w : Fin M → ℝ) (xs : Fin M → SWC V n) :
    Except Err (SWC V n) := do
  let i ← argmaxFirst w
  return mixAbout ops (xs i).state w xs

/-- `navlie/lib/states.py:656-673` (`MixtureState`). -/
structure Mixture (V : Type) (n M : ℕ) where
  states : Fin M → SWC V n
  probs : Fin M → ℝ

/-- `InteractingModelFilter` (`filters.py:823-860`): one EKF per model and the transition matrix. -/
structure Imm (V U : Type) (n M : ℕ) where
  kfs : Fin M → EkfEnv V U n
  ops : ManifoldOps V n
  trans : Mat M M

/-- `navlie/filters.py:880`: `c = Pi^T mu`, and the same sum at 946-952 (`c_bar`). -/
def predProb (trans : Mat M M) (mu : Fin M → ℝ) (j : Fin M) : ℝ := ∑ i, trans i j * mu i

/-- `navlie/filters.py:882-887`: the mixing weights. -/
noncomputable def mixWeight (trans : Mat M M) (mu : Fin M → ℝ) (i j : Fin M) : ℝ :=
  1 / predProb trans mu j * trans i j * mu i

open Classical in
/-- `navlie/filters.py:862-894` (`interaction`). A zero predicted probability divides by zero: numpy
produces NaN weights (`Err.nan` in the model). The probabilities are passed on unchanged (line 894). -/
noncomputable def Imm.interaction (f : Imm V U n M) (x : Mixture V n M) : Except Err (Mixture V n M) :=
  if ∃ j, predProb f.trans x.probs j = 0 then .error .nan
  else do
    let mixed ← seqFin M fun j => gaussianMixing f.ops (fun i => mixWeight f.trans x.probs i j) x.states
    return { states := mixed, probs := x.probs }

/-- `navlie/filters.py:896-919` (`predict`). -/
noncomputable def Imm.predict (f : Imm V U n M) (x : Mixture V n M) (u : Option (Inp U))
    (dt : Option ℝ) : Except Err (Mixture V n M) := do
  let s ← seqFin M fun i => (f.kfs i).predict (x.states i) u dt none
  return { states := s, probs := x.probs }

/-- `scipy.stats.multivariate_normal.pdf(z, mean=0, cov=S)` for a nonsingular `S`. -/
noncomputable def gaussPdf {m : ℕ} (z : Vec m) (S : Mat m m) : ℝ :=
  Real.exp (-(1 / 2) * (z ⬝ᵥ S⁻¹ *ᵥ z)) / Real.sqrt ((2 * Real.pi) ^ m * S.det)

/-- `navlie/filters.py:957-966`: correct one model and compute the likelihood of its innovation.
When the model returns `None` the details dict is empty: `KeyError`. -/
noncomputable def correctLik (e : EkfEnv V U n) (x : SWC V n) (y : Meas V n) (u : Option (Inp U)) :
    Except Err (SWC V n × ℝ) := do
  let (x', d) ← e.correctD x y u none none
  match d with
  | none => .error .keyError
  | some d => .ok (x', gaussPdf d.z d.S)

open Classical in
/-- `navlie/filters.py:970-975, 1099-1104`: the fudge factor (`np.allclose(mu, 0)`: every entry at most
`1e-8` in magnitude) and the normalization. -/
noncomputable def renormalize (mu : Fin M → ℝ) : Fin M → ℝ :=
  let mu' : Fin M → ℝ := if ∀ i, |mu i| ≤ 1 / 10 ^ 8 then fun _ => 1 / 10 ^ 10 else mu
  fun i => mu' i / ∑ j, mu' j

/-- `navlie/filters.py:919-980` (`InteractingModelFilter.correct`). -/
noncomputable def Imm.correct (f : Imm V U n M) (x : Mixture V n M) (y : Meas V n)
    (u : Option (Inp U)) : Except Err (Mixture V n M) := do
  let r ← seqFin M fun i => correctLik (f.kfs i) (x.states i) y u
  return { states := fun i => (r i).1
           probs := renormalize fun i => (r i).2 * predProb f.trans x.probs i }

/-- `navlie/filters.py:1022-1056` (`GaussianSumFilter.predict`). -/
noncomputable def gsfPredict (e : EkfEnv V U n) (x : Mixture V n M) (u : Option (Inp U))
    (dt : Option ℝ) : Except Err (Mixture V n M) := do
  let s ← seqFin M fun i => e.predict (x.states i) u dt none
  return { states := s, probs := x.probs }

/-- `navlie/filters.py:1088-1096`: as `correctLik`, but the mean passed to scipy is
`np.zeros(z.shape)` with `z` an `m x 1` column (`types.py:502-509`), which scipy refuses with a
`ValueError` unless `m = 1` (assumed behaviour of scipy: `mean` must be one-dimensional). -/
noncomputable def gsfCorrectLik (e : EkfEnv V U n) (x : SWC V n) (y : Meas V n) (u : Option (Inp U)) :
    Except Err (SWC V n × ℝ) := do
  let (x', d) ← e.correctD x y u none none
  match d with
  | none => .error .keyError
  | some d => if d.m = 1 then .ok (x', gaussPdf d.z d.S) else .error .valueError

/-- `navlie/filters.py:1058-1106` (`GaussianSumFilter.correct`). -/
noncomputable def gsfCorrect (e : EkfEnv V U n) (x : Mixture V n M) (y : Meas V n)
    (u : Option (Inp U)) : Except Err (Mixture V n M) := do
  let r ← seqFin M fun i => gsfCorrectLik e (x.states i) y u
  return { states := fun i => (r i).1
           probs := renormalize fun i => x.probs i * (r i).2 }

end Verif
