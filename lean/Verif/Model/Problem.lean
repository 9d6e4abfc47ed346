import Verif.Model.Composite
import Mathlib.Analysis.Real.Sqrt
import Mathlib.Analysis.SpecialFunctions.Log.Basic

/-!
Nonlinear least squares: `navlie/batch/problem.py` and `navlie/batch/losses.py`.

Numbers are exact reals. Dense and sparse matrices are not distinguished.
-/

namespace Verif

open Matrix

/-! ### Losses -/

/-- `losses.py:12-31` (`LossFunction`). -/
structure Loss where
  loss : ℝ → ℝ
  weight : ℝ → ℝ

/-- `losses.py:34-44` (`L2Loss`). -/
noncomputable def l2Loss : Loss where
  loss e := 1 / 2 * e * e
  weight _ := 1

/-- `losses.py:47-83` (`CauchyLoss`). Python floats: `c = 0` raises or yields NaN and is outside the model. -/
noncomputable def cauchyLoss (c : ℝ) : Loss where
  loss e := (1 / 2 * c ^ 2) * Real.log (1 + (e / c) ^ 2)
  weight e := 1 / (1 + (e / c) ^ 2)

/-! ### The problem object -/

variable {K S : Type} [DecidableEq K]

/-- Python `dict` lookup `d[k]` on an association list with distinct keys. -/
def dictGet {α : Type} (d : List (K × α)) (k : K) : Except Err α :=
  match d.lookup k with
  | some a => .ok a
  | none => .error .keyError

/-- Python `d[k] = a`: replaces in place or appends. -/
def dictSet {α : Type} (d : List (K × α)) (k : K) (a : α) : List (K × α) :=
  if (d.lookup k).isSome then d.map fun p => if p.1 = k then (k, a) else p else d ++ [(k, a)]

/-- What the problem needs of a variable: `State.dof`, `State.plus` (`types.py:48-183`). -/
structure VarOps (S : Type) where
  dof : S → ℕ
  plus : S → List ℝ → Except Err S

/-- `batch/residuals.py:17-61` (`Residual`): the keys and the two results of `evaluate`. Simplification: the
error does not depend on whether Jacobians are requested. -/
structure Residual (K S : Type) where
  keys : List K
  error : List S → Except Err (List ℝ)
  jacobians : List S → List Bool → Except Err (List (Option DMat))

/-- The solver settings, `problem.py:57-73`. -/
structure ProbCfg where
  solver : String
  maxIters : ℕ
  stepTol : Option ℝ
  ftol : Option ℝ
  gradTol : Option ℝ
  tau : ℝ

/-- A square matrix of some size. -/
abbrev SqMat := Σ n : ℕ, Mat n n

/-- The `Problem` object (`problem.py:54-96`). -/
structure Prob (K S : Type) where
  cfg : ProbCfg
  varsInit : List (K × S)
  constKeys : List K
  residuals : List (Residual K S)
  losses : List Loss
  vars : List (K × S)
  varSlices : List (K × Slice)
  resSlices : List Slice
  sizeErr : ℕ
  sizeState : ℕ
  costHistory : List ℝ
  info : Option SqMat
  cov : Option SqMat

/-- `problem.py:57-96`: a new problem. -/
def Prob.new (cfg : ProbCfg) : Prob K S :=
  ⟨cfg, [], [], [], [], [], [], [], 0, 0, [], none, none⟩

/-- The argument `loss` of `add_residual`: one loss or a list. -/
inductive LossArg where
  | one (l : Loss)
  | many (ls : List Loss)

/-- `problem.py:119-140` (`add_residual`) with a list of residuals. -/
def Prob.addResiduals (P : Prob K S) (rs : List (Residual K S)) (loss : LossArg) : Prob K S :=
  { P with
    residuals := P.residuals ++ rs
    losses := P.losses ++ match loss with
      | .one l => rs.map fun _ => l
      | .many ls => ls }

/-- `problem.py:119-140` (`add_residual`) with a single residual and a single loss. -/
def Prob.addResidual (P : Prob K S) (r : Residual K S) (l : Loss) : Prob K S :=
  { P with residuals := P.residuals ++ [r], losses := P.losses ++ [l] }

/-- `problem.py:142-144` (`add_variable`). -/
def Prob.addVariable (P : Prob K S) (k : K) (x : S) : Prob K S :=
  { P with varsInit := dictSet P.varsInit k x }

/-- `problem.py:146-159` (`set_variables_constant`) with a list of keys. -/
def Prob.setConstant (P : Prob K S) (ks : List K) : Prob K S :=
  { P with constKeys := ks.foldl (fun acc k => if k ∈ acc then acc else acc ++ [k]) P.constKeys }

/-- `problem.py:460-466`: one slice per non-constant variable, written into the (persistent) dictionary. -/
def colSlices (o : VarOps S) (const : List K) : List (K × S) → ℕ → List (K × Slice) → List (K × Slice) × ℕ
  | [], idx, d => (d, idx)
  | (k, x) :: l, idx, d =>
    if k ∈ const then colSlices o const l idx d
    else colSlices o const l (idx + o.dof x) (dictSet d k ⟨idx, idx + o.dof x⟩)

/-- `[variables[key] for key in residual.keys]` -/
def lookupAll (vars : List (K × S)) : List K → Except Err (List S)
  | [] => .ok []
  | k :: ks => do
    let x ← dictGet vars k
    let xs ← lookupAll vars ks
    return x :: xs

/-- `problem.py:469-478`: one slice per residual. -/
def rowSlices (vars : List (K × S)) : List (Residual K S) → ℕ → Except Err (List Slice × ℕ)
  | [], idx => .ok ([], idx)
  | r :: rs, idx => do
    let xs ← lookupAll vars r.keys
    let e ← r.error xs
    let (sl, tot) ← rowSlices vars rs (idx + e.length)
    return (⟨idx, idx + e.length⟩ :: sl, tot)

/-- `problem.py:451-481` (`_compute_size_of_problem`). `variable_slices` is NOT cleared. -/
def Prob.computeSize (o : VarOps S) (P : Prob K S) : Except Err (Prob K S) := do
  let (rs, m) ← rowSlices P.vars P.residuals 0
  let cs := colSlices o P.constKeys P.vars 0 P.varSlices
  return { P with varSlices := cs.1, resSlices := rs, sizeErr := m, sizeState := cs.2 }

/-- `np.linalg.norm` of a 1-dimensional array. -/
noncomputable def listNorm (l : List ℝ) : ℝ := Real.sqrt (l.map fun x => x * x).sum

/-- `e[slice] = v` for 1-dimensional arrays of which the first has length `n`, with broadcasting of length-1
arrays. -/
def setSeg (n : ℕ) (e : ℕ → ℝ) (s : Slice) (v : List ℝ) : Except Err (ℕ → ℝ) :=
  if v.length = s.len n ∨ v.length = 1 then
    .ok fun i => if s.start ≤ i ∧ i < s.stop then v.getD (if v.length = 1 then 0 else i - s.start) 0 else e i
  else .error .valueError

/-- `c * J` -/
def DMat.scale (c : ℝ) (J : DMat) : DMat := ⟨J.rows, J.cols, fun i j => c * J.get i j⟩

/-- `problem.py:431-443`: place the Jacobians of one residual. -/
def placeJacs (varSlices : List (K × Slice)) (rs : Slice) (w : ℝ) :
    List K → List (Option DMat) → DMat → Except Err DMat
  | [], _, H => .ok H
  | _ :: _, [], _ => .error .indexError
  | _ :: ks, none :: js, H => placeJacs varSlices rs w ks js H
  | k :: ks, some J :: js, H => do
    let cs ← dictGet varSlices k
    let H' ← H.setBlock rs cs (J.scale w)
    placeJacs varSlices rs w ks js H'

/-- The stacked error, Jacobian and cost under construction. -/
structure Asm where
  e : ℕ → ℝ
  H : DMat
  cost : ℝ

/-- `problem.py:402-443`: the loop over `zip(residual_list, loss_list)`; `i` indexes the row slices. -/
noncomputable def asmLoop (P : Prob K S) (vars : List (K × S)) :
    ℕ → List (Residual K S × Loss) → Asm → Except Err Asm
  | _, [], a => .ok a
  | i, (r, ls) :: rest, a => do
    let xs ← lookupAll vars r.keys
    let err ← r.error xs
    let jacs ← r.jacobians xs (r.keys.map fun k => !(P.constKeys.contains k))
    let w := Real.sqrt (ls.weight (listNorm err))
    let s ← pyGet P.resSlices i
    let e' ← setSeg P.sizeErr a.e s (err.map (w * ·))
    let H' ← placeJacs P.varSlices s w r.keys jacs a.H
    asmLoop P vars (i + 1) rest ⟨e', H', a.cost + ls.loss (listNorm err)⟩

/-- The result of `compute_error_jac_cost`. -/
structure Lin where
  m : ℕ
  n : ℕ
  e : Vec m
  H : Mat m n
  cost : ℝ

/-- `problem.py:377-449` (`compute_error_jac_cost`), after the sizes have been computed. -/
noncomputable def Prob.linearize (P : Prob K S) (vars : List (K × S)) : Except Err Lin := do
  let a ← asmLoop P vars 0 (P.residuals.zip P.losses) ⟨fun _ => 0, DMat.zeros P.sizeErr P.sizeState, 0⟩
  return ⟨P.sizeErr, P.sizeState, fun i => a.e i, fun i j => a.H.get i j, a.cost⟩

/-- `problem.py:483-508` (`_correct_states`). -/
def correctStates (o : VarOps S) (const : List K) (varSlices : List (K × Slice)) (dx : List ℝ) :
    List (K × S) → Except Err (List (K × S))
  | [] => .ok []
  | (k, x) :: l =>
    if k ∈ const then do
      let l' ← correctStates o const varSlices dx l
      return (k, x) :: l'
    else do
      let s ← dictGet varSlices k
      let x' ← o.plus x ((dx.drop s.start).take (s.stop - s.start))
      let l' ← correctStates o const varSlices dx l
      return (k, x') :: l'

/-! ### The solvers -/

/-- `H.T @ H` -/
def Lin.A (L : Lin) : Mat L.n L.n := L.Hᵀ * L.H

/-- `H.T @ e` -/
def Lin.b (L : Lin) : Vec L.n := L.Hᵀ *ᵥ L.e

open Classical in
/-- `sparse.linalg.spsolve(A, -b)`: a singular matrix gives a warning and NaN (`Err.nan`). -/
noncomputable def spsolve {n : ℕ} (A : Mat n n) (b : Vec n) : Except Err (Vec n) :=
  if A.det = 0 then .error .nan else .ok (A⁻¹ *ᵥ (-b))

/-- `np.max` of an array: `ValueError` if empty. -/
noncomputable def npMax {n : ℕ} (v : Vec n) : Except Err ℝ :=
  if h : 0 < n then .ok (Finset.univ.sup' ⟨⟨0, h⟩, Finset.mem_univ _⟩ v) else .error .valueError

/-- `grad_norm = np.max(np.abs((e.T @ H).squeeze()))` (`problem.py:251, 351`). -/
noncomputable def Lin.gradNorm (L : Lin) : Except Err ℝ := npMax fun j => |(L.e ᵥ* L.H) j|

/-- `np.linalg.norm(delta_x)` -/
noncomputable def vecNorm {n : ℕ} (v : Vec n) : ℝ := Real.sqrt (v ⬝ᵥ v)

open Classical in
/-- `problem.py:98-117` (`is_converged`). -/
noncomputable def isConverged (c : ProbCfg) (deltaCost : Option ℝ) (cost dx : ℝ) (gradNorm : Option ℝ) : Bool :=
  match deltaCost with
  | none => false
  | some dc =>
    let rel := if cost ≠ 0 then dc / cost else 0
    decide ((∃ t ∈ c.stepTol, dx < t) ∨ (∃ t ∈ c.ftol, rel < t) ∨ cost = 0 ∨ dx = 0 ∨
      (∃ t ∈ c.gradTol, ∃ g ∈ gradNorm, g < t))

/-- `delta_cost = np.abs(cost_list[-1] - cost_list[-2])` if there are two costs, unchanged otherwise;
`costs` is the list with the latest first. -/
noncomputable def deltaCostOf (costs : List ℝ) (old : Option ℝ) : Option ℝ :=
  match costs with
  | c :: c' :: _ => some |c - c'|
  | _ => old

/-- The local variables of a solver loop. `lin` is the linearization that `A` and `b` come from. -/
structure LoopState (K S : Type) where
  vars : List (K × S)
  lin : Lin
  costs : List ℝ          -- `cost_list`, latest first
  deltaCost : Option ℝ
  gradNorm : Option ℝ
  dx : ℝ
  info : Option SqMat     -- `A`
  mu : ℝ                  -- LM only
  nu : ℝ                  -- LM only

/-- `problem.py:225-262`: the body of the Gauss-Newton loop; the Boolean is `break`. -/
noncomputable def gnStep (o : VarOps S) (P : Prob K S) (s : LoopState K S) :
    Except Err (LoopState K S × Bool) :=
  if isConverged P.cfg s.deltaCost (s.costs.headD 0) s.dx s.gradNorm then .ok (s, true)
  else do
    let δ ← spsolve s.lin.A s.lin.b
    let vars' ← correctStates o P.constKeys P.varSlices (List.ofFn δ) s.vars
    let L' ← P.linearize vars'
    let g ← L'.gradNorm
    return ({ s with vars := vars', lin := L', costs := L'.cost :: s.costs,
                     deltaCost := deltaCostOf (L'.cost :: s.costs) s.deltaCost,
                     gradNorm := some g, dx := vecNorm δ, info := some ⟨_, s.lin.A⟩ }, false)

/-- `while iter_idx < self.max_iters`, for a loop body. -/
def iterLoop (step : LoopState K S → Except Err (LoopState K S × Bool)) :
    ℕ → LoopState K S → Except Err (LoopState K S)
  | 0, s => .ok s
  | k + 1, s => do
    let r ← step s
    if r.2 then .ok r.1 else iterLoop step k r.1

/-- `problem.py:200-271` (`_solve_gauss_newton`). `A` is unbound if the loop never ran. -/
noncomputable def solveGN (o : VarOps S) (P : Prob K S) : Except Err (Prob K S) := do
  let L ← P.linearize P.vars
  let s ← iterLoop (gnStep o P) P.cfg.maxIters ⟨P.vars, L, [L.cost], none, none, 10, none, 0, 0⟩
  let Lf ← P.linearize s.vars
  match s.info with
  | none => .error .unboundLocal
  | some A => .ok { P with vars := s.vars, costHistory := (Lf.cost :: s.costs).reverse, info := some A }

open Classical in
/-- `gain_ratio > 0` (`problem.py:329`): a zero denominator gives `±inf` or NaN according to the numerator. -/
noncomputable def gainPositive (num den : ℝ) : Bool :=
  if den = 0 then decide (0 < num) else decide (0 < num / den)

open Classical in
/-- `max(1/3, 1 - (2 g - 1)^3)` (`problem.py:331`), `g = +inf` for a zero denominator. -/
noncomputable def gainFactor (num den : ℝ) : ℝ :=
  if den = 0 then 1 / 3 else max (1 / 3) (1 - (2 * (num / den) - 1) ^ 3)

/-- `0.5 * delta_x.T @ (mu * delta_x - b)` (`problem.py:323-325`). -/
noncomputable def gainDen {n : ℕ} (δ b : Vec n) (mu : ℝ) : ℝ := 1 / 2 * (δ ⬝ᵥ (mu • δ - b))

/-- `problem.py:329-351`: accept or reject the trial step. The previous cost is `cost_list[-1]`. -/
noncomputable def lmUpdate (s : LoopState K S) (dx : ℝ) (vt : List (K × S)) (Lt : Lin) (den g : ℝ) :
    LoopState K S :=
  let num := s.costs.headD 0 - Lt.cost
  if gainPositive num den then
    { s with vars := vt, lin := Lt, costs := Lt.cost :: s.costs,
             deltaCost := deltaCostOf (Lt.cost :: s.costs) s.deltaCost,
             gradNorm := some g, dx := dx, info := some ⟨_, Lt.A⟩,
             mu := s.mu * gainFactor num den, nu := 2 }
  else
    { s with deltaCost := deltaCostOf s.costs s.deltaCost, gradNorm := some g, dx := dx,
             mu := s.mu * s.nu, nu := 2 * s.nu }

/-- `problem.py:306-363`: the body of the Levenberg-Marquardt loop. After a rejected step `grad_norm` is computed
from the rejected linearization (line 351). -/
noncomputable def lmStep (o : VarOps S) (P : Prob K S) (s : LoopState K S) :
    Except Err (LoopState K S × Bool) := do
  let δ ← spsolve (s.lin.A + s.mu • (1 : Mat _ _)) s.lin.b
  if isConverged P.cfg s.deltaCost (s.costs.headD 0) (vecNorm δ) s.gradNorm then
    .ok ({ s with dx := vecNorm δ }, true)
  else do
    let vt ← correctStates o P.constKeys P.varSlices (List.ofFn δ) s.vars
    let Lt ← P.linearize vt
    let g ← Lt.gradNorm
    return (lmUpdate s (vecNorm δ) vt Lt (gainDen δ s.lin.b s.mu) g, false)

/-- `problem.py:273-375` (`_solve_LM`). -/
noncomputable def solveLM (o : VarOps S) (P : Prob K S) : Except Err (Prob K S) := do
  let L ← P.linearize P.vars
  let mx ← npMax fun j => L.A j j
  let s ← iterLoop (lmStep o P) P.cfg.maxIters
    ⟨P.vars, L, [L.cost], none, none, 10, some ⟨_, L.A⟩, P.cfg.tau * mx, 2⟩
  let Lf ← P.linearize s.vars
  return { P with vars := s.vars, costHistory := (Lf.cost :: s.costs).reverse, info := s.info }

/-- `problem.py:161-198` (`solve`): any other solver name leaves everything as it is. -/
noncomputable def Prob.solve (o : VarOps S) (P : Prob K S) : Except Err (Prob K S) := do
  let P1 ← ({ P with vars := P.varsInit } : Prob K S).computeSize o
  if P.cfg.solver = "GN" then solveGN o P1
  else if P.cfg.solver = "LM" then solveLM o P1
  else .ok P1

/-! ### Covariance -/

open Classical in
/-- `problem.py:541-550` (`compute_covariance`): any failure (no information matrix yet, singular matrix) is
printed and leaves `_covariance_matrix` as it was. -/
noncomputable def Prob.computeCovariance (P : Prob K S) : Prob K S :=
  match P.info with
  | none => P
  | some A => if A.2.det = 0 then P else { P with cov := some ⟨A.1, A.2⁻¹⟩ }

/-- `M[s1, s2]` as a function of the position inside the block; `none` stands for Python's `None`. -/
def SqMat.block (M : SqMat) (s1 s2 : Slice) : DMat :=
  (⟨M.1, M.1, fun i j => if h : i < M.1 ∧ j < M.1 then M.2 ⟨i, h.1⟩ ⟨j, h.2⟩ else 0⟩ : DMat).block s1 s2

/-- `problem.py:510-539` (`get_covariance_block`): cached; an unknown key is printed and gives `None`; indexing
a missing covariance is a `TypeError`. Returns the block and the updated problem. -/
noncomputable def Prob.getCovarianceBlock (P : Prob K S) (k1 k2 : K) :
    Except Err (Option DMat × Prob K S) :=
  let P' := if P.cov.isNone then P.computeCovariance else P
  match P'.varSlices.lookup k1, P'.varSlices.lookup k2 with
  | some s1, some s2 =>
    match P'.cov with
    | none => .error .typeError
    | some M => .ok (some (M.block s1 s2), P')
  | _, _ => .ok (none, P')

end Verif
