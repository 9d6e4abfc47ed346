import Verif.Model.Problem
import Mathlib.Analysis.SpecialFunctions.Log.Basic
import Mathlib.Analysis.SpecialFunctions.Exp

/-!
Gaussian mixture residuals: `navlie/batch/gaussian_mixtures.py`.

A mixture is itself a residual, and it evaluates its components through the same interface. Component errors are lists
of reals; `column` records whether numpy sees them as an `m × 1` array (as those of `MeasurementResidual` are) or as a
1-dimensional one, because `np.concatenate` and `np.array` treat the two differently.
-/

namespace Verif

open Matrix

variable {K S : Type} [DecidableEq K]

/-- A component: a residual with `sqrt_info_matrix` (`batch/residuals.py:63-77`, and its overrides). -/
structure MixComp (K S : Type) where
  res : Residual K S
  sqrtInfo : List S → Except Err SqMat
  column : Bool

/-- `gaussian_mixtures.py:36-60`: the attributes of a mixture. -/
structure MixRes (K S : Type) where
  comps : List (MixComp K S)
  weights : List ℝ
  keys : List K

/-- `gaussian_mixtures.py:52-55`: the keys of all components in order of first occurrence. -/
def unionKeys (cs : List (MixComp K S)) : List K :=
  cs.foldl (fun acc c => c.res.keys.foldl (fun acc k => if k ∈ acc then acc else acc ++ [k]) acc) []

open Classical in
/-- `gaussian_mixtures.py:36-60` (`__init__`): weights are normalized; weights with sum zero give NaN. -/
noncomputable def MixRes.new (cs : List (MixComp K S)) (ws : List ℝ) : Except Err (MixRes K S) :=
  if ws.sum = 0 then .error .nan else .ok ⟨cs, ws.map (· / ws.sum), unionKeys cs⟩

/-- `gaussian_mixtures.py:109-110`: `[states[self.keys.index(k)] for k in error.keys]`. -/
def pickAll {α : Type} (keys : List K) (xs : List α) : List K → Except Err (List α)
  | [] => .ok []
  | k :: ks => do
    let x ← pyGet xs (keys.idxOf k)
    let r ← pickAll keys xs ks
    return x :: r

/-- What one component contributes: its error, its square root information matrix, its shape. -/
structure CompVal where
  e : List ℝ
  L : SqMat
  column : Bool

/-- `gaussian_mixtures.py:107-143`: the component values. -/
def compValues (keys : List K) (xs : List S) : List (MixComp K S) → Except Err (List CompVal)
  | [] => .ok []
  | c :: cs => do
    let ys ← pickAll keys xs c.res.keys
    let e ← c.res.error ys
    let L ← c.sqrtInfo ys
    let r ← compValues keys xs cs
    return ⟨e, L, c.column⟩ :: r

/-- `gaussian_mixtures.py:124-131`: zero matrices for the states whose Jacobian is asked for, `None` for the others. -/
def zeroJacs (dof : S → ℕ) (m : ℕ) : List Bool → List S → List (Option DMat)
  | b :: bs, x :: xs => (if b then some (DMat.zeros m (dof x)) else none) :: zeroJacs dof m bs xs
  | [], xs => xs.map fun _ => none
  | _, [] => []

/-- `gaussian_mixtures.py:137-138`: overwrite the Jacobians of the states the component depends on. -/
def putJacs (keys : List K) : List K → List (Option DMat) → List (Option DMat) → List (Option DMat)
  | k :: ks, J :: js, l => putJacs keys ks js (l.set (keys.idxOf k) J)
  | _, _, l => l

/-- `gaussian_mixtures.py:107-143`: the component Jacobians, one list per component, one entry per state. -/
def compJacs (dof : S → ℕ) (keys : List K) (xs : List S) (flags : List Bool) :
    List (MixComp K S) → Except Err (List (List (Option DMat)))
  | [] => .ok []
  | c :: cs => do
    let ys ← pickAll keys xs c.res.keys
    let fs ← pickAll keys flags c.res.keys
    let e ← c.res.error ys
    let js ← c.res.jacobians ys fs
    let r ← compJacs dof keys xs flags cs
    return putJacs keys c.res.keys js (zeroJacs dof e.length flags xs) :: r

/-- `0.5 * e.T @ e` -/
noncomputable def halfSq (e : List ℝ) : ℝ := 1 / 2 * (e.map fun x => x * x).sum

/-- `alphas` (`gaussian_mixtures.py:197-200` and in every class): `weight * det(sqrt_info_matrix)`; `zip`. -/
noncomputable def alphasOf (ws : List ℝ) (vals : List CompVal) : List ℝ :=
  List.zipWith (fun w v => w * v.L.2.det) ws vals

open Classical in
/-- Auxiliary to `npArgmin`. -/
noncomputable def argminGo : List ℝ → ℕ → ℕ → ℝ → ℕ
  | [], _, best, _ => best
  | x :: l, i, best, v => if x < v then argminGo l (i + 1) i x else argminGo l (i + 1) best v

/-- `np.argmin`: the first position of the smallest entry; `ValueError` if there is none. -/
noncomputable def npArgmin : List ℝ → Except Err ℕ
  | [] => .error .valueError
  | x :: l => .ok (argminGo l 1 0 x)

open Classical in
/-- `np.sqrt`: NaN for a negative argument. -/
noncomputable def npSqrt (x : ℝ) : Except Err ℝ := if x < 0 then .error .nan else .ok (Real.sqrt x)

open Classical in
/-- `np.log`: `-inf` or NaN for a nonpositive argument; both are treated as NaN. -/
noncomputable def npLog (x : ℝ) : Except Err ℝ := if x ≤ 0 then .error .nan else .ok (Real.log x)

/-- Largest entry of a list (`max(alphas)`). -/
noncomputable def listMax : List ℝ → ℝ
  | [] => 0
  | x :: l => l.foldl max x

/-- `res_values` (`gaussian_mixtures.py:205-210`): `-log(alpha) + 0.5 e^T e`, for each component. -/
noncomputable def resValues (alphas : List ℝ) (errs : List (List ℝ)) : List ℝ :=
  List.zipWith (fun a e => -Real.log a + halfSq e) alphas errs

/-- `sum_k alpha_k exp(c - f_k)` -/
noncomputable def sumExp (c : ℝ) (alphas : List ℝ) (errs : List (List ℝ)) : ℝ :=
  (List.zipWith (fun a e => a * Real.exp (c - halfSq e)) alphas errs).sum

/-- The four mixtures. -/
inductive MixKind where
  | max
  | maxSum (damping : ℝ)
  | sum
  | hsm

open Classical in
/-- A nonpositive `alpha` (zero or negative weight or determinant) gives infinities or NaN. -/
noncomputable def guardAlphas (alphas : List ℝ) : Except Err Unit :=
  if ∀ a ∈ alphas, 0 < a then .ok () else .error .nan

/-- `gaussian_mixtures.py:193-224` (`MaxMixtureResidual.mix_errors`). Mixing 1-dimensional and column errors makes
`np.array(...)` raise. -/
noncomputable def mixMax (alphas : List ℝ) (vals : List CompVal) : Except Err (List ℝ) := do
  if (vals.any fun v => v.column) && (vals.any fun v => !v.column) then .error .valueError else
  let k ← npArgmin (resValues alphas (vals.map CompVal.e))
  let v ← pyGet vals k
  let a ← pyGet alphas k
  let l ← npLog (listMax alphas / a)
  let s ← npSqrt l
  return v.e ++ [Real.sqrt 2 * s]

/-- `gaussian_mixtures.py:319-338` (`compute_nonlinear_part`) from the scalar `f_dom`. -/
noncomputable def maxSumNonlinear (damping : ℝ) (alphas : List ℝ) (errs : List (List ℝ)) (fdom : ℝ) :
    Except Err ℝ := do
  let c ← npLog (alphas.length * listMax alphas + damping)
  let t ← npLog (sumExp fdom alphas errs)
  let s ← npSqrt (c - t)
  return Real.sqrt 2 * s

/-- `gaussian_mixtures.py:279-318` (`MaxSumMixtureResidual.mix_errors`). `np.concatenate` of a column and a
1-dimensional array raises. -/
noncomputable def mixMaxSum (damping : ℝ) (alphas : List ℝ) (vals : List CompVal) : Except Err (List ℝ) := do
  let k ← npArgmin (resValues alphas (vals.map CompVal.e))
  let v ← pyGet vals k
  if vals.any fun v => v.column then .error .valueError else
  let nl ← maxSumNonlinear damping alphas (vals.map CompVal.e) (halfSq v.e)
  return v.e ++ [nl]

/-- `gaussian_mixtures.py:442-479` (`SumMixtureResidual.mix_errors`); the error is a scalar. -/
noncomputable def mixSum (alphas : List ℝ) (vals : List CompVal) : Except Err (List ℝ) := do
  let k ← npArgmin (resValues alphas (vals.map CompVal.e))
  let v ← pyGet vals k
  let t ← npLog (sumExp (halfSq v.e) alphas (vals.map CompVal.e))
  let s ← npSqrt (alphas.sum + halfSq v.e - t)
  return [Real.sqrt 2 * s]

/-- `gaussian_mixtures.py:575-582` (`get_normalization_constant`). -/
noncomputable def hsmConst (alphas : List ℝ) : ℝ :=
  Real.log (alphas.map fun a => a * Real.exp (alphas.sum / a)).sum

/-- `drho_df_list` of the Hessian-Sum-Mixture (`gaussian_mixtures.py:595-605`). -/
noncomputable def hsmWeights (fmin : ℝ) (alphas : List ℝ) (errs : List (List ℝ)) : List ℝ :=
  List.zipWith (fun a e => a * Real.exp (fmin - halfSq e) / sumExp fmin alphas errs) alphas errs

/-- `np.vstack([np.sqrt(drho) * e.reshape(-1, 1) ...])` -/
noncomputable def hsmStack (ps : List ℝ) (errs : List (List ℝ)) : List ℝ :=
  (List.zipWith (fun p e => e.map (Real.sqrt p * ·)) ps errs).flatten

/-- `gaussian_mixtures.py:584-655` (`HessianSumMixtureResidual.mix_errors`). A stacked error of size one is squeezed
to a 0-dimensional array, which `np.concatenate` refuses. The variant with `no_use_complex_numbers=False` differs only
when the argument of the last square root is negative. -/
noncomputable def mixHsm (alphas : List ℝ) (vals : List CompVal) : Except Err (List ℝ) := do
  let errs := vals.map CompVal.e
  let k ← npArgmin (errs.map halfSq)
  let e ← pyGet errs k
  let ps := hsmWeights (halfSq e) alphas errs
  let h := hsmStack ps errs
  let t ← npLog (sumExp (halfSq e) alphas errs)
  if h.length = 1 then .error .valueError else
  let d ← npSqrt (2 * (hsmConst alphas + halfSq e - t) - (h.map fun x => x * x).sum)
  return h ++ [d]

/-- `mix_errors` of the four classes, with the guard on `alpha`. -/
noncomputable def mixErrors (kind : MixKind) (alphas : List ℝ) (vals : List CompVal) : Except Err (List ℝ) := do
  guardAlphas alphas
  match kind with
  | .max => mixMax alphas vals
  | .maxSum d => mixMaxSum d alphas vals
  | .sum => mixSum alphas vals
  | .hsm => mixHsm alphas vals

/-- `gaussian_mixtures.py:155-175` (`evaluate`), the error. -/
noncomputable def MixRes.error (M : MixRes K S) (kind : MixKind) (xs : List S) : Except Err (List ℝ) := do
  let vals ← compValues M.keys xs M.comps
  mixErrors kind (alphasOf M.weights vals) vals

/-! ### Jacobians -/

/-- `np.vstack([A, B])`: `ValueError` if the numbers of columns differ. -/
def DMat.vstack (A B : DMat) : Except Err DMat :=
  if A.cols = B.cols then
    .ok ⟨A.rows + B.rows, A.cols, fun i j => if i < A.rows then A.get i j else B.get (i - A.rows) j⟩
  else .error .valueError

/-- A `1 × n` array. -/
def DMat.row (n : ℕ) (r : ℕ → ℝ) : DMat := ⟨1, n, fun _ j => r j⟩

/-- `sum_i e_i J_ij` -/
def rowTimes (e : List ℝ) (J : DMat) (j : ℕ) : ℝ := ∑ i ∈ Finset.range e.length, e.getD i 0 * J.get i j

/-- `e.reshape(1, -1) @ J`, with numpy's check of the inner dimension. Simplification: a number of columns different
from `n` raises (numpy would broadcast a single column). A missing Jacobian is a `TypeError`. -/
def rowMul (n : ℕ) (e : List ℝ) (J : Option DMat) : Except Err (ℕ → ℝ) :=
  match J with
  | none => .error .typeError
  | some J => if J.rows = e.length ∧ J.cols = n then .ok (rowTimes e J) else .error .valueError

/-- `sum_k drho_k e_k^T J_k` -/
def weightedRows (n : ℕ) : List ℝ → List (List ℝ) → List (Option DMat) → Except Err (ℕ → ℝ)
  | p :: ps, e :: es, J :: Js => do
    let r ← rowMul n e J
    let s ← weightedRows n ps es Js
    return fun j => p * r j + s j
  | _, _, _ => .ok fun _ => 0

/-- `[jac_list[lv1] for jac_list in jacobian_list_of_lists]` -/
def jacColumn (jss : List (List (Option DMat))) (i : ℕ) : Except Err (List (Option DMat)) :=
  jss.mapM fun js => pyGet js i

/-- `gaussian_mixtures.py:247-256` (`MaxMixtureResidual.mix_jacobians`), one state. -/
def jacMax (J : Option DMat) : Except Err (Option DMat) :=
  match J with
  | none => .ok none
  | some J => do
    let R ← J.vstack (DMat.row J.cols fun _ => 0)
    return some R

open Classical in
/-- `numerator / e`: NaN for `e = 0`. -/
noncomputable def divRow (r : ℕ → ℝ) (e : ℝ) : Except Err (ℕ → ℝ) :=
  if e = 0 then .error .nan else .ok fun j => r j / e

/-- `gaussian_mixtures.py:391-423` (`MaxSumMixtureResidual.mix_jacobians`), one state: `Js` are the component
Jacobians with respect to it. -/
noncomputable def jacMaxSum (ps : List ℝ) (errs : List (List ℝ)) (k : ℕ) (enl : ℝ) (Js : List (Option DMat)) :
    Except Err (Option DMat) := do
  let J0 ← pyGet Js 0
  match J0 with
  | none => .ok none
  | some J0 => do
    let s ← weightedRows J0.cols ps errs Js
    let ek ← pyGet errs k
    let Jk ← pyGet Js k
    let d ← rowMul J0.cols ek Jk
    let r ← divRow (fun j => s j - d j) enl
    match Jk with
    | none => .error .typeError
    | some Jk => do
      let R ← Jk.vstack (DMat.row J0.cols r)
      return some R

/-- `gaussian_mixtures.py:517-545` (`SumMixtureResidual.mix_jacobians`), one state. -/
noncomputable def jacSum (ps : List ℝ) (errs : List (List ℝ)) (e : ℝ) (Js : List (Option DMat)) :
    Except Err (Option DMat) := do
  let J0 ← pyGet Js 0
  match J0 with
  | none => .ok none
  | some J0 => do
    let s ← weightedRows J0.cols ps errs Js
    let r ← divRow s e
    return some (DMat.row J0.cols r)

/-- `np.vstack([np.sqrt(drho) * jac ...] + [zeros])` -/
noncomputable def stackJacs (n : ℕ) : List ℝ → List (Option DMat) → Except Err DMat
  | _ :: _, none :: _ => .error .typeError
  | p :: ps, some J :: Js => do
    let R ← stackJacs n ps Js
    (J.scale (Real.sqrt p)).vstack R
  | _, _ => .ok (DMat.row n fun _ => 0)

/-- `gaussian_mixtures.py:679-700` (`HessianSumMixtureResidual.mix_jacobians`), one state. -/
noncomputable def jacHsm (ps : List ℝ) (Js : List (Option DMat)) : Except Err (Option DMat) := do
  let J0 ← pyGet Js 0
  match J0 with
  | none => .ok none
  | some J0 => do
    let R ← stackJacs J0.cols ps Js
    return some R

/-- The weights `drho` with the exponents shifted by `c` (`gaussian_mixtures.py:382-390, 500-513, 595-605`; each
class uses its own shift). -/
noncomputable def drho (c : ℝ) (alphas : List ℝ) (errs : List (List ℝ)) : List ℝ := hsmWeights c alphas errs

/-- `mix_jacobians` of the four classes for the states with indices `is`; `e` is the mixed error. The Sum-Mixture
shifts by the smallest squared norm. -/
noncomputable def mixJacobian (kind : MixKind) (alphas : List ℝ) (errs : List (List ℝ)) (e : List ℝ)
    (jss : List (List (Option DMat))) (i : ℕ) : Except Err (Option DMat) := do
  let Js ← jacColumn jss i
  match kind with
  | .max => do
    let k ← npArgmin (resValues alphas errs)
    let J ← pyGet Js k
    jacMax J
  | .maxSum _ => do
    let k ← npArgmin (resValues alphas errs)
    let ek ← pyGet errs k
    jacMaxSum (drho (halfSq ek) alphas errs) errs k (e.getLastD 0) Js
  | .sum => do
    let k ← npArgmin (errs.map halfSq)
    let ek ← pyGet errs k
    jacSum (drho (halfSq ek) alphas errs) errs (e.getLastD 0) Js
  | .hsm => do
    let k ← npArgmin (errs.map halfSq)
    let ek ← pyGet errs k
    jacHsm (drho (halfSq ek) alphas errs) Js

/-- `gaussian_mixtures.py:155-175` (`evaluate`), the Jacobians, one per state. -/
noncomputable def MixRes.jacobians (M : MixRes K S) (dof : S → ℕ) (kind : MixKind) (xs : List S)
    (flags : List Bool) : Except Err (List (Option DMat)) := do
  let vals ← compValues M.keys xs M.comps
  let jss ← compJacs dof M.keys xs flags M.comps
  let e ← mixErrors kind (alphasOf M.weights vals) vals
  (List.range xs.length).mapM fun i => mixJacobian kind (alphasOf M.weights vals) (vals.map CompVal.e) e jss i

/-- A mixture as a residual of a problem. -/
noncomputable def MixRes.toResidual (M : MixRes K S) (dof : S → ℕ) (kind : MixKind) : Residual K S where
  keys := M.keys
  error := M.error kind
  jacobians := M.jacobians dof kind

end Verif
