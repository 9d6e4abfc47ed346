import Verif.Model.Iekf
import Mathlib.Analysis.Matrix.LDL
import Mathlib.Analysis.SpecialFunctions.Sqrt
import Mathlib.Data.Real.StarOrdered
import Mathlib.Data.Matrix.Block

/-!
Sigma points, `mean_state` and `SigmaPointKalmanFilter` of `navlie/filters.py`.
A weighted point set (`sigma_points` by columns together with `w`) is a list of pairs `(weight, point)`.
-/

namespace Verif

open Matrix

/-- A list of `(weight, point)` pairs. -/
abbrev Weighted (α : Type) := List (ℝ × α)

/-- `sum_i w_i * f(x_i)`, the pattern of `filters.py:64-65, 649-653, 727-743`. -/
def wsum {α M : Type} [AddCommMonoid M] [SMul ℝ M] (l : Weighted α) (f : α → M) : M :=
  (l.map fun p => p.1 • f p.2).sum

/-- Unit vector: a column of `np.eye(dof)`. -/
def unitVec {n : ℕ} (i : Fin n) : Vec n := Pi.single i 1

/-- `navlie/filters.py:475-482`: columns of `sqrt(dof + 2) * [0, I, -I]` with their weights. -/
noncomputable def unscentedPoints (n : ℕ) : Weighted (Vec n) :=
  let kappa : ℝ := 2
  let s : ℝ := Real.sqrt (n + kappa)
  let w : ℝ := 1 / (2 * (n + kappa))
  (kappa / (n + kappa), s • (0 : Vec n)) ::
    ((List.finRange n).map (fun i => (w, s • unitVec i)) ++
     (List.finRange n).map (fun i => (w, s • (-unitVec i))))

/-- `navlie/filters.py:484-487`: columns of `sqrt(dof) * [I, -I]`, weights `1 / (2 dof)`. -/
noncomputable def cubaturePoints (n : ℕ) : Weighted (Vec n) :=
  let s : ℝ := Real.sqrt n
  let w : ℝ := 1 / (2 * n)
  (List.finRange n).map (fun i => (w, s • unitVec i)) ++
    (List.finRange n).map (fun i => (w, s • (-unitVec i)))

/-- `navlie/filters.py:492-494`: `hermeroots([0,0,0,1])`, the roots of the probabilists' Hermite
polynomial `He_3(x) = x^3 - 3x` in increasing order (assumed behaviour of numpy, see `ghRoot_root`). -/
noncomputable def ghRoot : Fin 3 → ℝ := ![-Real.sqrt 3, 0, Real.sqrt 3]

/-- `navlie/filters.py:495-499`: `3! / (3 * He_2(x_i))^2` with `He_2(x) = x^2 - 1`. -/
noncomputable def ghWeight (i : Fin 3) : ℝ := 6 / (3 * (ghRoot i ^ 2 - 1)) ^ 2

/-- `navlie/filters.py:504-508`: digit `j` of `k` in base 3. -/
def ghDigit (k j : ℕ) : Fin 3 := ⟨k / 3 ^ j % 3, Nat.mod_lt _ (by norm_num)⟩

/-- `navlie/filters.py:504-518`: the product grid of the scalar Gauss-Hermite rule. -/
noncomputable def ghPoints (n : ℕ) : Weighted (Vec n) :=
  (List.range (3 ^ n)).map fun k =>
    (∏ j : Fin n, ghWeight (ghDigit k j), fun j : Fin n => ghRoot (ghDigit k j))

/-- `navlie/filters.py:452-520` (`generate_sigmapoints`). For `dof = 0` the cubature rule divides by zero
and the Gauss-Hermite branch stacks an empty list; an unknown method leaves `sigma_points` unbound. -/
noncomputable def generateSigmapoints (n : ℕ) (method : String) : Except Err (Weighted (Vec n)) :=
  if method = "unscented" then .ok (unscentedPoints n)
  else if method = "cubature" then
    (if n = 0 then .error .zeroDivision else .ok (cubaturePoints n))
  else if method = "gh" then
    (if n = 0 then .error .valueError else .ok (ghPoints n))
  else .error .unboundLocal

/-- The symmetric matrix that `numpy.linalg.cholesky` sees: only the lower triangle is read. -/
def lowerSym {n : ℕ} (P : Mat n n) : Mat n n := fun i j => if j ≤ i then P i j else P j i

open Classical in
/-- `numpy.linalg.cholesky`: raises `LinAlgError` unless the (lower triangle of the) matrix is positive
definite, otherwise the factor `L = lower * sqrt(diag)` with `L Lᵀ = P`. -/
noncomputable def npCholesky {n : ℕ} (P : Mat n n) : Except Err (Mat n n) :=
  if h : (lowerSym P).PosDef then
    .ok (LDL.lower h * diagonal fun i => Real.sqrt (LDL.diagEntries h i))
  else .error .linAlgError

/-- `scipy.linalg.block_diag(P, Q)`. -/
def blockDiag2 {n k : ℕ} (P : Mat n n) (Q : Mat k k) : Mat (n + k) (n + k) :=
  (fromBlocks P 0 0 Q).submatrix finSumFinEquiv.symm finSumFinEquiv.symm

/-- Input with optional covariance: `navlie/lib/states.py:676-740` (`VectorInput.covariance`). -/
structure CInp (U : Type) (k : ℕ) where
  value : U
  stamp : Option ℝ
  cov : Option (Mat k k)

/-- What `SigmaPointKalmanFilter` reads: process model evaluation, `plus`/`minus` of states, `plus` of
inputs (`u.dof = k`), the options, and the chi-square quantile. The sigma point cache (`filters.py:611-616`)
memoizes the deterministic `generate_sigmapoints` and is omitted. -/
structure SpkfEnv (V U : Type) (n k : ℕ) where
  evaluate : St V → CInp U k → ℝ → St V
  plus : V → Vec n → V
  minus : V → V → Vec n
  uplus : U → Vec k → U
  method : String
  rejectOutliers : Bool
  iterateMean : Bool
  chi2ppf99 : ℕ → ℝ

variable {V U : Type} {n k : ℕ}

/-- Euclidean norm (`np.linalg.norm`). -/
noncomputable def vnorm {n : ℕ} (v : Vec n) : ℝ := Real.sqrt (v ⬝ᵥ v)

/-- `navlie/filters.py:59-72`: the loop of `mean_state`, `fuel` passes left, `e` the current `norm(err)`. -/
noncomputable def meanLoop (plus : V → Vec n → V) (minus : V → V → Vec n) (xs : Weighted V) :
    ℕ → ℝ → V → V
  | 0, _, m => m
  | fuel + 1, e, m =>
    if e > 1 / 10 ^ 6 then
      let err : Vec n := wsum xs fun x => minus x m
      meanLoop plus minus xs fuel (vnorm err) (plus m err)
    else m

/-- `navlie/filters.py:40-72` (`mean_state`): `err = 1` initially, at most 51 passes (`iter <= 50`),
starting at the first state; the result carries the stamp of the first state. -/
noncomputable def meanState (plus : V → Vec n → V) (minus : V → V → Vec n) (xs : Weighted (St V)) :
    Except Err (St V) :=
  match xs with
  | [] => .error .indexError
  | (_, x0) :: _ =>
    .ok { x0 with value := meanLoop plus minus (xs.map fun p => (p.1, p.2.value)) 51 1 x0.value }

/-- first `n_x` entries, `sp[0:n_x]` (`filters.py:628`) -/
def spX (s : Vec (n + k)) : Vec n := fun i => s (Fin.castAdd k i)

/-- remaining entries, `sp[n_x:]` (`filters.py:629`) -/
def spU (s : Vec (n + k)) : Vec k := fun i => s (Fin.natAdd n i)

/-- `navlie/filters.py:602-609`: the input covariance argument, else `u.covariance`, else `ValueError`. -/
def inputCovOf (u : CInp U k) (inputCov : Option (Mat k k)) : Except Err (Mat k k) :=
  match inputCov with
  | some Q => .ok Q
  | none => match u.cov with
    | some Q => .ok Q
    | none => .error .valueError

/-- `navlie/filters.py:610-611`: the time step argument, else `u.stamp - x.state.stamp`. -/
noncomputable def timeStepOf (u : CInp U k) (xstamp : Option ℝ) (dt : Option ℝ) : Except Err ℝ :=
  match dt with
  | some d => .ok d
  | none => match u.stamp, xstamp with
    | some tu, some tx => .ok (tu - tx)
    | _, _ => .error .typeError

/-- `navlie/filters.py:597-613` for a non-`None` input: stamp loading, choice of the input covariance,
time difference. Returns the state's stamp, the input covariance and `dt`. -/
noncomputable def SpkfEnv.predictArgs (x : SWC V n) (u : CInp U k) (dt : Option ℝ)
    (inputCov : Option (Mat k k)) : Except Err (Option ℝ × Mat k k × ℝ) := do
  let xstamp := x.state.stamp.or u.stamp
  let Q ← inputCovOf u inputCov
  let dt ← timeStepOf u xstamp dt
  if dt < 0 then .error .runtimeError else .ok (xstamp, Q, dt)

/-- `navlie/filters.py:597-616, 667` for `u = None`: `u.stamp` / `u.covariance` raise `AttributeError`
unless the stamp, the covariance and `dt` are all given; then the copy is returned unchanged. -/
noncomputable def SpkfEnv.predictNone (x : SWC V n) (dt : Option ℝ)
    (inputCov : Option (Mat k k)) : Except Err (SWC V n) :=
  match x.state.stamp, inputCov, dt with
  | some _, some _, some d => if d < 0 then .error .runtimeError else .ok x
  | _, _, _ => .error .attributeError

/-- `navlie/filters.py:638-648`: the propagated points (with their weights) for given unit points and
square root `L` of the joint covariance. -/
noncomputable def SpkfEnv.propagated (f : SpkfEnv V U n k) (xs : St V) (u : CInp U k) (dt : ℝ)
    (L : Mat (n + k) (n + k)) (unit : Weighted (Vec (n + k))) : Weighted (St V) :=
  unit.map fun p =>
    (p.1, f.evaluate { xs with value := f.plus xs.value (spX (L *ᵥ p.2)) }
      { u with value := f.uplus u.value (spU (L *ᵥ p.2)) } dt)

/-- `navlie/filters.py:637-641`: the predicted mean. -/
noncomputable def SpkfEnv.predMean (f : SpkfEnv V U n k) (xs : St V) (u : CInp U k) (dt : ℝ)
    (prop : Weighted (St V)) : Except Err (St V) :=
  if f.iterateMean then meanState f.plus f.minus prop else .ok (f.evaluate xs u dt)

/-- `navlie/filters.py:643-648`: `sum_i w_i err_i err_i^T`. -/
noncomputable def SpkfEnv.predCov (f : SpkfEnv V U n k) (mean : St V) (prop : Weighted (St V)) :
    Mat n n :=
  wsum prop fun s => vecMulVec (f.minus mean.value s.value) (f.minus mean.value s.value)

/-- `navlie/filters.py:615-667`: the propagation itself. The result's stamp is the stamp that the process
model left on the mean, plus `dt` (line 665). -/
noncomputable def SpkfEnv.propagate (f : SpkfEnv V U n k) (xs : St V) (P : Mat n n) (u : CInp U k)
    (Q : Mat k k) (dt : ℝ) : Except Err (SWC V n) := do
  let L ← npCholesky (blockDiag2 P Q)
  let unit ← generateSigmapoints (n + k) f.method
  let prop := f.propagated xs u dt L unit
  let mean ← f.predMean xs u dt prop
  match mean.stamp with
  | none => .error .typeError                               -- `None += dt`
  | some t => .ok { state := { mean with stamp := some (t + dt) }
                    cov := symmetrize (f.predCov mean prop) }

/-- `navlie/filters.py:565-667` (`SigmaPointKalmanFilter.predict`). -/
noncomputable def SpkfEnv.predict (f : SpkfEnv V U n k) (x : SWC V n) (u : Option (CInp U k))
    (dt : Option ℝ) (inputCov : Option (Mat k k)) : Except Err (SWC V n) :=
  match u with
  | none => SpkfEnv.predictNone x dt inputCov
  | some u => do
    let (xstamp, Q, dt) ← SpkfEnv.predictArgs x u dt inputCov
    f.propagate { x.state with stamp := xstamp } x.cov u Q dt

/-- `navlie/filters.py:695-712`: stamp loading, refusal of old measurements, prediction. -/
noncomputable def SpkfEnv.advance (f : SpkfEnv V U n k) (x : SWC V n) (y : Meas V n)
    (u : Option (CInp U k)) : Except Err (SWC V n) :=
  let x : SWC V n := match x.state.stamp with
    | none => { x with state := { x.state with stamp := y.stamp } }
    | some _ => x
  match y.stamp, x.state.stamp with
  | none, _ => .ok x
  | some _, none => .error .typeError   -- unreachable: the stamp was filled above
  | some ty, some tx =>
    if ty - tx < 0 then .error .runtimeError
    else match u with
      | none => .ok x
      | some u => f.predict x (some u) (some (ty - tx)) none

/-- `navlie/filters.py:729-734`: measurement model at every sigma point; `None.ravel()` raises. -/
def evalPoints {m : ℕ} (ev : Vec n → Option (Vec m)) :
    Weighted (Vec n) → Except Err (Weighted (Vec n × Vec m))
  | [] => .ok []
  | (w, s) :: l => match ev s with
    | none => .error .attributeError
    | some y => (evalPoints ev l).map ((w, (s, y)) :: ·)

/-- `navlie/filters.py:764-770`: the gain and the update. -/
noncomputable def SpkfEnv.update (f : SpkfEnv V U n k) (x : SWC V n) {m : ℕ} (z : Vec m)
    (Pyy : Mat m m) (Pxy : Mat n m) : Except Err (SWC V n) := do
  let Kt ← solve Pyyᵀ Pxyᵀ
  let K := Ktᵀ
  return { state := { x.state with value := f.plus x.state.value (K *ᵥ z) }
           cov := symmetrize (x.cov - K * Pxyᵀ) }

/-- `navlie/filters.py:736-773`: statistics of the propagated measurements and the update. -/
noncomputable def SpkfEnv.fuseYs (f : SpkfEnv V U n k) (x : SWC V n) (y : Meas V n) (reject : Bool)
    (ys : Weighted (Vec n × Vec y.m)) : Except Err (SWC V n) := do
  let ymean : Vec y.m := wsum ys fun p => p.2
  let Pyy : Mat y.m y.m :=
    (wsum ys fun p => vecMulVec (p.2 - ymean) (p.2 - ymean)) + y.model.covariance x.state
  let Pxy : Mat n y.m := wsum ys fun p => vecMulVec p.1 (p.2 - ymean)
  let z : Vec y.m := y.value - ymean
  let outlier ← maybeOutlier f.chi2ppf99 reject z Pyy
  if outlier then .ok x else f.update x z Pyy Pxy

/-- `navlie/filters.py:714-775`: correction at the current time. -/
noncomputable def SpkfEnv.fuse (f : SpkfEnv V U n k) (x : SWC V n) (y : Meas V n) (reject : Bool) :
    Except Err (SWC V n) := do
  let unit ← generateSigmapoints n f.method
  let L ← npCholesky x.cov
  let pts : Weighted (Vec n) := unit.map fun p => (p.1, L *ᵥ p.2)
  match y.model.evaluate x.state with
  | none => .ok x
  | some _ => do
    let ys ← evalPoints
      (fun s => y.model.evaluate { x.state with value := f.plus x.state.value s }) pts
    f.fuseYs x y reject ys

/-- `navlie/filters.py:669-775` (`SigmaPointKalmanFilter.correct`). -/
noncomputable def SpkfEnv.correct (f : SpkfEnv V U n k) (x : SWC V n) (y : Meas V n)
    (u : Option (CInp U k)) (reject : Option Bool) : Except Err (SWC V n) := do
  let xp ← f.advance x y u
  f.fuse xp y (reject.getD f.rejectOutliers)

end Verif
