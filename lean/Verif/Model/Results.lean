import Verif.Model.Interp
import Verif.Model.Mixture

/-!
Evaluation of estimates: `navlie/utils/common.py:518-931` (`GaussianResult`, `GaussianResultList`, `MonteCarloResult`).
-/

namespace Verif

open Matrix

variable {V : Type} {n : ℕ}

open Classical in
/-- `if p: raise e`. -/
noncomputable def raiseIf (p : Prop) (e : Err) : Except Err Unit := if p then .error e else .ok ()

/-- `common.py:518-576` (`GaussianResult`): the attributes. -/
structure GResult (V : Type) (n : ℕ) where
  stamp : Option ℝ
  state : V
  stateTrue : V
  covariance : Mat n n
  error : Vec n
  ees : ℝ
  nees : ℝ
  rmse : ℝ
  md : ℝ
  threeSigma : Vec n

/-- `common.py:538-576` (`GaussianResult.__init__`). `ees / dof` with `dof = 0` is a `ZeroDivisionError`; square roots of
negative numbers are NaN. -/
noncomputable def gaussianResult (o : StateOps V n) (x : St V) (P : Mat n n) (truth : V) : Except Err (GResult V n) := do
  let e := o.minus truth x.value
  let s ← solve P (Matrix.of fun i (_ : Fin 1) => e i)
  let nees := e ⬝ᵥ fun i => s i 0
  raiseIf (n = 0) .zeroDivision
  let rmse ← npSqrt ((e ⬝ᵥ e) / n)
  let md ← npSqrt nees
  raiseIf (∃ i, P i i < 0) .nan
  return { stamp := x.stamp, state := x.value, stateTrue := truth, covariance := P, error := e, ees := e ⬝ᵥ e,
           nees := nees, rmse := rmse, md := md, threeSigma := fun i => 3 * Real.sqrt (P i i) }

/-- The element of a list of query stamps: `None` has no `stamp`. -/
def stampItem : Option ℝ → QItem
  | some t => .num t
  | none => .other

/-- The result of `state_interp` as a list (for a list of queries it is one). -/
def InterpOut.toList : InterpOut V → List (V × ℝ)
  | .one x => [x]
  | .many l => l

/-- `common.py:794-827` (`GaussianResultList.from_estimates`); the list of results stands for the stacked arrays of
`GaussianResultList.__init__` (`common.py:625-668`). -/
noncomputable def fromEstimates (o : StateOps V n) (m : InterpMethod) (ests : List (St V × Mat n n))
    (truths : List (V × ℝ)) : Except Err (List (GResult V n)) := do
  let out ← stateInterp o m truths (.list (ests.map fun e => stampItem e.1.stamp))
  (ests.zip out.toList).mapM fun p => gaussianResult o p.1.1 p.1.2 p.2.1

open Classical in
/-- `common.py:729-757` (`nees_lower_bound`); `ppf p d` is `chi2.ppf(p, df=d)`. `MonteCarloResult` (`common.py:880-903`)
passes `num_trials * dof` degrees of freedom and divides by `num_trials`; for a single trajectory `trials = 1`. -/
noncomputable def neesLowerBound (ppf : ℝ → ℝ → ℝ) (trials : ℕ) (dofs : List ℝ) (c : ℝ) : Except Err (List ℝ) :=
  if c ≥ 1 ∨ c ≤ 0 then .error .valueError else .ok (dofs.map fun d => ppf ((1 - c) / 2) (trials * d) / trials)

open Classical in
/-- `common.py:759-792`, `905-931` (`nees_upper_bound`). -/
noncomputable def neesUpperBound (ppf : ℝ → ℝ → ℝ) (trials : ℕ) (dofs : List ℝ) (c : ℝ) (doubleSided : Bool) :
    Except Err (List ℝ) :=
  if c ≥ 1 ∨ c ≤ 0 then .error .valueError
  else .ok (dofs.map fun d => ppf (c + if doubleSided then (1 - c) / 2 else 0) (trials * d) / trials)

/-- `np.average(np.array(rows), axis=0)` for a list of rows; rows of different lengths cannot be made an array
(`ValueError`). -/
noncomputable def columnAverage (rows : List (List ℝ)) : Except Err (List ℝ) :=
  match rows with
  | [] => .error .indexError
  | r :: rs =>
    if rs.all fun q => q.length == r.length then
      .ok ((List.range r.length).map fun t => ((r :: rs).map fun q => q.getD t 0).sum / ((r :: rs).length : ℝ))
    else .error .valueError

/-- The part of a `GaussianResultList` that `MonteCarloResult` uses, for errors with a constant number of components:
`error` holds one list per component (the transpose of the array in the code). -/
structure Trial where
  nees : List ℝ
  ees : List ℝ
  error : List (List ℝ)

/-- `common.py:837-876` (`MonteCarloResult.__init__`): averages over the trials; `rmse` per component. With no trials
`trial_results[0]` is an `IndexError`. -/
structure MonteCarlo where
  averageNees : List ℝ
  averageEes : List ℝ
  totalRmse : List ℝ
  rmse : List (List ℝ)

/-- `common.py:838-878`; `dof` is the number of error components. -/
noncomputable def monteCarloResult (dof : ℕ) (trials : List Trial) : Except Err MonteCarlo := do
  let an ← columnAverage (trials.map Trial.nees)
  let ae ← columnAverage (trials.map Trial.ees)
  let ms ← (List.range dof).mapM fun j =>
    columnAverage (trials.map fun t => (t.error.getD j []).map fun e => e ^ 2)
  return { averageNees := an, averageEes := ae, totalRmse := ae.map Real.sqrt, rmse := ms.map fun l => l.map Real.sqrt }

/-! ### Slicing -/

/-- An index of `results[k1, k2]`. -/
inductive Key where
  | int (k : ℤ)
  | slice (start stop step : Option ℤ)
  | list (l : List ℤ)
  | other

/-- The number of elements of Python's `range(s, e, k)`, `k ≠ 0`. -/
def rangeLen (s e k : ℤ) : ℕ := if 0 < k then ((e - s + (k - 1)) / k).toNat else ((s - e + (-k - 1)) / -k).toNat

/-- `list(range(s, e, k))`, `k ≠ 0`. -/
def rangeZ (s e k : ℤ) : List ℤ := (List.range (rangeLen s e k)).map fun i : ℕ => s + (i : ℤ) * k

/-- `common.py:677-689`: the list that the code makes of a key. -/
def Key.raw (len : ℕ) : Key → Except Err (List ℤ)
  | .int k => .ok [k]
  | .slice s e k => if k.getD 1 = 0 then .error .valueError else .ok (rangeZ (s.getD 0) (e.getD len) (k.getD 1))
  | .list l => .ok l
  | .other => .error .typeError

/-- Indexing an axis of length `len` with one integer: negative integers count from the end. -/
def wrapIdx (len : ℕ) (i : ℤ) : Except Err ℕ :=
  if 0 ≤ i ∧ i < len then .ok i.toNat else if -len ≤ i ∧ i < 0 then .ok (i + len).toNat else .error .indexError

/-- The start of a slice of an axis of length `len` as Python adjusts it (`slice.indices`). -/
def sliceStart (len : ℤ) (k : ℤ) : Option ℤ → ℤ
  | none => if 0 < k then 0 else len - 1
  | some s =>
    if s < 0 then max (s + len) (if 0 < k then 0 else -1) else min s (if 0 < k then len else len - 1)

/-- The stop of a slice as Python adjusts it. -/
def sliceStop (len : ℤ) (k : ℤ) : Option ℤ → ℤ
  | none => if 0 < k then len else -1
  | some e =>
    if e < 0 then max (e + len) (if 0 < k then 0 else -1) else min e (if 0 < k then len else len - 1)

/-- The indices that numpy selects for a slice. -/
def sliceIdx (len : ℕ) (s e : Option ℤ) (k : ℤ) : List ℕ :=
  (rangeZ (sliceStart len k s) (sliceStop len k e) k).map Int.toNat

/-- The entries of the array `error` that an index selects, in order: a scalar, a vector or a matrix. -/
inductive ErrArr where
  | scalar (t j : ℕ)
  | oneD (l : List (ℕ × ℕ))
  | twoD (ts js : List ℕ)

/-- Broadcasting of two axes. -/
def bdim (e : Err) (a b : ℕ) : Except Err ℕ :=
  if a = b then .ok a else if a = 1 then .ok b else if b = 1 then .ok a else .error e

/-- Index on an axis that is broadcast if it has length 1. -/
def bidx (len i : ℕ) : ℕ := if len = 1 then 0 else i

/-- A slice or a list as an index of numpy along one axis. -/
def Key.idx (len : ℕ) : Key → Except Err (List ℕ)
  | .int k => (wrapIdx len k).map fun i => [i]
  | .slice s e k => if k.getD 1 = 0 then .error .valueError else .ok (sliceIdx len s e (k.getD 1))
  | .list l => l.mapM (wrapIdx len)
  | .other => .error .typeError

/-- How the indices along the two axes are combined (`common.py:701`): an integer drops its axis, two lists are paired. -/
def pairIdx (k1 k2 : Key) (ts js : List ℕ) : Except Err ErrArr :=
  match k1, k2 with
  | .int _, .int _ => .ok (.scalar (ts.getD 0 0) (js.getD 0 0))
  | .int _, _ => .ok (.oneD (js.map fun j => (ts.getD 0 0, j)))
  | _, .int _ => .ok (.oneD (ts.map fun t => (t, js.getD 0 0)))
  | .list _, .list _ => (bdim .indexError ts.length js.length).map fun N =>
    (.oneD ((List.range N).map fun i => (ts.getD (bidx ts.length i) 0, js.getD (bidx js.length i) 0)))
  | _, _ => .ok (.twoD ts js)

/-- `self.error[key1, key2]` (`common.py:701`): an integer drops its axis, two lists are paired. -/
def errIndex (T D : ℕ) (k1 k2 : Key) : Except Err ErrArr := do
  let ts ← k1.idx T
  let js ← k2.idx D
  pairIdx k1 k2 ts js

/-- A `GaussianResultList` with `T` time steps and `D` degrees of freedom: the arrays `error` and `covariance`. -/
structure GList where
  T : ℕ
  D : ℕ
  error : ℕ → ℕ → ℝ
  cov : ℕ → ℕ → ℕ → ℝ

/-- The block `covariance[t][np.ix_(js, js)]`. -/
noncomputable def GList.block (g : GList) (js : List ℕ) (t : ℕ) : Mat js.length js.length :=
  .of fun a b => g.cov t (js.getD a.val 0) (js.getD b.val 0)

/-- `common.py:708-716`: the sum over components of `error * solve(covariance, error.reshape(..)).reshape(..)`, with
numpy's rules for `reshape` (equal numbers of entries, row by row) and broadcasting. -/
noncomputable def nees2 (g : GList) (ts js cts cjs : List ℕ) : Except Err (List ℝ) := do
  raiseIf (ts.length * js.length ≠ cts.length * cjs.length) .valueError
  let flat : ℕ → ℝ := fun k => g.error (ts.getD (k / js.length) 0) (js.getD (k % js.length) 0)
  let ys ← (List.range cts.length).mapM fun t =>
    solve (g.block cjs (cts.getD t 0)) (Matrix.of fun j (_ : Fin 1) => flat (t * cjs.length + j.val))
  let R ← bdim .valueError ts.length cts.length
  let C ← bdim .valueError js.length cjs.length
  return (List.range R).map fun i => ∑ j ∈ Finset.range C,
    g.error (ts.getD (bidx ts.length i) 0) (js.getD (bidx js.length j) 0) *
      (if h : bidx cjs.length j < cjs.length then (ys.getD (bidx cts.length i) 0) ⟨_, h⟩ 0 else 0)

/-- `common.py:704-706`: `error**2 / covariance.flatten()`; a division by zero is NaN or infinity. -/
noncomputable def nees1 (g : GList) (es : List (ℕ × ℕ)) (cts cjs : List ℕ) : Except Err (List ℝ) := do
  let flat := cts.flatMap fun t => cjs.flatMap fun a => cjs.map fun b => g.cov t a b
  let N ← bdim .valueError es.length flat.length
  raiseIf (∃ v ∈ flat, v = 0) .nan
  return (List.range N).map fun i =>
    g.error (es.getD (bidx es.length i) (0, 0)).1 (es.getD (bidx es.length i) (0, 0)).2 ^ 2 /
      flat.getD (bidx flat.length i) 0

/-- The sliced list: which entries of `error` and of `covariance` it holds, and the recomputed `ees` and `nees`. -/
structure GSlice where
  err : ErrArr
  covT : List ℕ
  covC : List ℕ
  ees : List ℝ
  nees : List ℝ

/-- `common.py:702`: `np.sum(np.atleast_2d(error**2), axis=1)`. A vector is made a matrix of one row. -/
noncomputable def eesOf (g : GList) : ErrArr → List ℝ
  | .scalar t j => [g.error t j ^ 2]
  | .oneD l => [(l.map fun p => g.error p.1 p.2 ^ 2).sum]
  | .twoD ts js => ts.map fun t => (js.map fun j => g.error t j ^ 2).sum

/-- `common.py:704-717`: the branch by the number of axes of `error`. For a scalar `error.shape[1]` is an `IndexError`
(line 717). -/
noncomputable def neesOf (g : GList) (err : ErrArr) (cts cjs : List ℕ) : Except Err (List ℝ) :=
  match err with
  | .scalar _ _ => .error .indexError
  | .oneD l => nees1 g l cts cjs
  | .twoD ts js => nees2 g ts js cts cjs

/-- `common.py:670-727` (`GaussianResultList.__getitem__`) for a pair of keys; `results[k]` is `results[k, :]`. Square roots of negative numbers (`md`, `three_sigma`) are
not modelled here, nor is the final `squeeze`. -/
noncomputable def getItem (g : GList) (k1 k2 : Key) : Except Err GSlice := do
  let r1 ← k1.raw g.T
  let r2 ← k2.raw g.D
  let cts ← r1.mapM (wrapIdx g.T)
  let cjs ← r2.mapM (wrapIdx g.D)
  let err ← errIndex g.T g.D k1 k2
  let ns ← neesOf g err cts cjs
  return ⟨err, cts, cjs, eesOf g err, ns⟩

end Verif
