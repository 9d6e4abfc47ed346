import Verif.Model.Problem

/-!
The `Problem` object of `navlie/batch/problem.py` as a mutable Python object: every method is a state transformer whose
effects up to the point of an exception stay, dictionaries of variables are heap objects that results share with the
object, and the sizes computed by an earlier call are kept.

`Verif.Model.Problem` models the same methods as functions; `Verif.Props.ProblemObj` proves that they agree.
-/

namespace Verif

open Matrix

variable {K S : Type} [DecidableEq K]

/-- The attributes of a `Problem` (`problem.py:57-96`). `dicts` are all the dictionaries of variables created so far;
`vars` is the address of the one `self.variables` refers to. `resSlices` may hold `None`
(`problem.py:471`: `[None] * len(self.residual_list)`). `sizes` is `(_size_errors, _size_state)`, both `None` at first.
Simplification: the states in the dictionaries are values, as `State.copy` and `State.plus` make new objects (C79). -/
structure PObj (K S : Type) where
  cfg : ProbCfg
  varsInit : List (K × S)
  constKeys : List K
  residuals : List (Residual K S)
  losses : List Loss
  dicts : List (List (K × S))
  vars : ℕ
  varSlices : List (K × Slice)
  resSlices : List (Option Slice)
  sizes : Option (ℕ × ℕ)
  costHistory : Option (List ℝ)
  info : Option SqMat
  cov : Option SqMat

/-- `problem.py:57-96`: a new problem. -/
def PObj.new (cfg : ProbCfg) : PObj K S :=
  ⟨cfg, [], [], [], [], [[]], 0, [], [], none, none, none, none⟩

/-- The contents of the dictionary at an address. -/
def PObj.dict (p : PObj K S) (a : ℕ) : List (K × S) := p.dicts.getD a []

/-- A method: from the object before the call to the object after it and the value returned or the exception raised. -/
def PM (K S α : Type) := PObj K S → PObj K S × Except Err α

/-- Sequential execution; an exception skips the rest and keeps the effects so far. -/
instance : Monad (PM K S) where
  pure a := fun p => (p, .ok a)
  bind m f := fun p => match m p with
    | (p', .ok a) => f a p'
    | (p', .error e) => (p', .error e)

/-- An expression without effects on the object. -/
def PM.lift {α : Type} (r : Except Err α) : PM K S α := fun p => (p, r)

/-- Assignment to attributes. -/
def PM.modify (f : PObj K S → PObj K S) : PM K S Unit := fun p => (f p, .ok ())

/-- Reading attributes. -/
def PM.get : PM K S (PObj K S) := fun p => (p, .ok p)

/-- `problem.py:470-478`: `residual_slices[i]` is assigned residual by residual. -/
def rowLoop (vars : List (K × S)) : ℕ → List (Residual K S) → ℕ → PM K S ℕ
  | _, [], idx => pure idx
  | i, r :: rs, idx => do
    let xs ← PM.lift (lookupAll vars r.keys)
    let e ← PM.lift (r.error xs)
    PM.modify fun p => { p with resSlices := p.resSlices.set i (some ⟨idx, idx + e.length⟩) }
    rowLoop vars (i + 1) rs (idx + e.length)

/-- `problem.py:451-481` (`_compute_size_of_problem`). -/
def objComputeSize (o : VarOps S) : PM K S Unit := do
  let p ← PM.get
  let cs := colSlices o p.constKeys (p.dict p.vars) 0 p.varSlices
  PM.modify fun p => { p with varSlices := cs.1 }
  PM.modify fun p => { p with resSlices := List.replicate p.residuals.length none }
  let m ← rowLoop (p.dict p.vars) 0 p.residuals 0
  PM.modify fun p => { p with sizes := some (m, cs.2) }

/-- `e[s] = v`; for `s = None` numpy adds an axis and the whole of `e` is assigned. -/
def setSegO (n : ℕ) (e : ℕ → ℝ) (s : Option Slice) (v : List ℝ) : Except Err (ℕ → ℝ) :=
  setSeg n e (s.getD ⟨0, n⟩) v

/-- `problem.py:431-443`; for a row slice `None` numpy adds an axis, so `H[None, cs]` are the ROWS `cs` of `H`. -/
def placeJacsO (varSlices : List (K × Slice)) (rs : Option Slice) (w : ℝ) :
    List K → List (Option DMat) → DMat → Except Err DMat
  | [], _, H => .ok H
  | _ :: _, [], _ => .error .indexError
  | _ :: ks, none :: js, H => placeJacsO varSlices rs w ks js H
  | k :: ks, some J :: js, H => do
    let cs ← dictGet varSlices k
    let H' ← match rs with
      | some r => H.setBlock r cs (J.scale w)
      | none => H.setBlock cs ⟨0, H.cols⟩ (J.scale w)
    placeJacsO varSlices rs w ks js H'

/-- `problem.py:402-443`: the loop over residuals and losses. -/
noncomputable def PObj.asm (p : PObj K S) (size : ℕ) (vars : List (K × S)) :
    ℕ → List (Residual K S × Loss) → Asm → Except Err Asm
  | _, [], a => .ok a
  | i, (r, ls) :: rest, a => do
    let xs ← lookupAll vars r.keys
    let err ← r.error xs
    let jacs ← r.jacobians xs (r.keys.map fun k => !(p.constKeys.contains k))
    let w := Real.sqrt (ls.weight (listNorm err))
    let s ← pyGet p.resSlices i
    let e' ← setSegO size a.e s (err.map (w * ·))
    let H' ← placeJacsO p.varSlices s w r.keys jacs a.H
    PObj.asm p size vars (i + 1) rest ⟨e', H', a.cost + ls.loss (listNorm err)⟩

/-- `problem.py:377-449` (`compute_error_jac_cost`): the sizes are computed only if they are missing, and then from
`self.variables`, whatever is passed. -/
noncomputable def objErrorJacCost (o : VarOps S) (vars : Option (List (K × S))) : PM K S Lin := do
  let p ← PM.get
  let vs := vars.getD (p.dict p.vars)
  if p.sizes.isNone then objComputeSize o else pure ()
  let p ← PM.get
  let (m, n) := p.sizes.getD (0, 0)
  let a ← PM.lift (p.asm m vs 0 (p.residuals.zip p.losses) ⟨fun _ => 0, DMat.zeros m n, 0⟩)
  return ⟨m, n, fun i => a.e i, fun i j => a.H.get i j, a.cost⟩

/-- A new dictionary; returns its address. -/
def objAlloc (d : List (K × S)) : PM K S ℕ :=
  fun p => ({ p with dicts := p.dicts ++ [d] }, .ok p.dicts.length)

/-- `problem.py:504-508`: the loop of `_correct_states` over the dictionary at address `a`; `done` and the argument list
are the entries before and after the current one. Entries are assigned one at a time. -/
def objCorrect (o : VarOps S) (a : ℕ) (dx : List ℝ) : List (K × S) → List (K × S) → PM K S Unit
  | _, [] => pure ()
  | done, (k, x) :: rest => do
    let p ← PM.get
    if k ∈ p.constKeys then objCorrect o a dx (done ++ [(k, x)]) rest
    else do
      let s ← PM.lift (dictGet p.varSlices k)
      let x' ← PM.lift (o.plus x ((dx.drop s.start).take (s.stop - s.start)))
      PM.modify fun p => { p with dicts := p.dicts.set a (done ++ (k, x') :: rest) }
      objCorrect o a dx (done ++ [(k, x')]) rest

/-- The local variables of a solver loop (`problem.py:208-215`, `282-299`). -/
structure SolverLocals where
  lin : Lin
  costs : List ℝ          -- `cost_list`, latest first
  deltaCost : Option ℝ
  gradNorm : Option ℝ
  dx : ℝ
  info : Option SqMat     -- `A`
  mu : ℝ                  -- LM only
  nu : ℝ                  -- LM only

/-- `problem.py:225-262`: the body of the Gauss-Newton loop; the Boolean is `break`. -/
noncomputable def objGnStep (o : VarOps S) (s : SolverLocals) : PM K S (SolverLocals × Bool) := do
  let p ← PM.get
  if isConverged p.cfg s.deltaCost (s.costs.headD 0) s.dx s.gradNorm then pure (s, true)
  else do
    let δ ← PM.lift (spsolve s.lin.A s.lin.b)
    objCorrect o p.vars (List.ofFn δ) [] (p.dict p.vars)
    let L' ← objErrorJacCost o none
    let g ← PM.lift L'.gradNorm
    return ({ s with
      lin := L', costs := L'.cost :: s.costs, deltaCost := deltaCostOf (L'.cost :: s.costs) s.deltaCost,
      gradNorm := some g, dx := vecNorm δ, info := some ⟨_, s.lin.A⟩ }, false)

/-- `while iter_idx < self.max_iters` -/
def objLoop (step : SolverLocals → PM K S (SolverLocals × Bool)) : ℕ → SolverLocals → PM K S SolverLocals
  | 0, s => pure s
  | k + 1, s => do
    let r ← step s
    if r.2 then pure r.1 else objLoop step k r.1

/-- `problem.py:200-271` (`_solve_gauss_newton`): the history and the information matrix are stored last. -/
noncomputable def objSolveGN (o : VarOps S) : PM K S Unit := do
  let L ← objErrorJacCost o none
  let p ← PM.get
  let s ← objLoop (objGnStep o) p.cfg.maxIters ⟨L, [L.cost], none, none, 10, none, 0, 0⟩
  let Lf ← objErrorJacCost o none
  PM.modify fun p => { p with costHistory := some (Lf.cost :: s.costs).reverse }
  match s.info with
  | none => PM.lift (.error .unboundLocal)
  | some A => PM.modify fun p => { p with info := some A }

/-- `problem.py:306-363`: the body of the Levenberg-Marquardt loop. The trial step works on a copy of the dictionary; if
accepted, `self.variables` refers to the copy. -/
noncomputable def objLmStep (o : VarOps S) (s : SolverLocals) : PM K S (SolverLocals × Bool) := do
  let p ← PM.get
  let δ ← PM.lift (spsolve (s.lin.A + s.mu • (1 : Mat _ _)) s.lin.b)
  if isConverged p.cfg s.deltaCost (s.costs.headD 0) (vecNorm δ) s.gradNorm then
    pure ({ s with dx := vecNorm δ }, true)
  else do
    let t ← objAlloc (p.dict p.vars)
    objCorrect o t (List.ofFn δ) [] (p.dict p.vars)
    let q ← PM.get
    let Lt ← objErrorJacCost o (some (q.dict t))
    let num := s.costs.headD 0 - Lt.cost
    let den := gainDen δ s.lin.b s.mu
    if gainPositive num den then do
      PM.modify fun p => { p with vars := t }
      let L' ← objErrorJacCost o none
      let g ← PM.lift L'.gradNorm
      return ({ s with
        lin := L', costs := L'.cost :: s.costs, deltaCost := deltaCostOf (L'.cost :: s.costs) s.deltaCost,
        gradNorm := some g, dx := vecNorm δ, info := some ⟨_, L'.A⟩, mu := s.mu * gainFactor num den, nu := 2 }, false)
    else do
      let g ← PM.lift Lt.gradNorm
      return ({ s with
        deltaCost := deltaCostOf s.costs s.deltaCost, gradNorm := some g, dx := vecNorm δ,
        mu := s.mu * s.nu, nu := 2 * s.nu }, false)

/-- `problem.py:273-375` (`_solve_LM`). -/
noncomputable def objSolveLM (o : VarOps S) : PM K S Unit := do
  let L ← objErrorJacCost o none
  let mx ← PM.lift (npMax fun j => L.A j j)
  let p ← PM.get
  let s ← objLoop (objLmStep o) p.cfg.maxIters ⟨L, [L.cost], none, none, 10, some ⟨_, L.A⟩, p.cfg.tau * mx, 2⟩
  let Lf ← objErrorJacCost o none
  PM.modify fun p => { p with costHistory := some (Lf.cost :: s.costs).reverse }
  PM.modify fun p => { p with info := s.info }

/-- The dictionary that `solve` returns (`problem.py:186-196`): `vars` is the address of the dictionary object itself. The time is
left out. -/
structure SolveResult where
  vars : ℕ
  info : Option SqMat
  sizeState : ℕ
  sizeErr : ℕ
  cost : Option (List ℝ)

/-- `problem.py:161-198` (`solve`). -/
noncomputable def objSolve (o : VarOps S) : PM K S SolveResult := do
  let p ← PM.get
  let a ← objAlloc p.varsInit
  PM.modify fun p => { p with vars := a }
  objComputeSize o
  if p.cfg.solver = "GN" then objSolveGN o
  else if p.cfg.solver = "LM" then objSolveLM o
  else pure ()
  let p ← PM.get
  let (m, n) := p.sizes.getD (0, 0)
  return ⟨p.vars, p.info, n, m, p.costHistory⟩

open Classical in
/-- `problem.py:541-550` (`compute_covariance`): a failure is printed and changes nothing. -/
noncomputable def objComputeCovariance : PM K S (Option SqMat) := fun p =>
  match p.info with
  | none => (p, .ok none)
  | some A => if A.2.det = 0 then (p, .ok none) else ({ p with cov := some ⟨A.1, A.2⁻¹⟩ }, .ok (some ⟨A.1, A.2⁻¹⟩))

/-- `problem.py:510-539` (`get_covariance_block`). -/
noncomputable def objCovarianceBlock (k1 k2 : K) : PM K S (Option DMat) := do
  let p ← PM.get
  if p.cov.isNone then do let _ ← objComputeCovariance
  let p ← PM.get
  match p.varSlices.lookup k1, p.varSlices.lookup k2 with
  | some s1, some s2 =>
    match p.cov with
    | none => PM.lift (.error .typeError)
    | some M => return some (M.block s1 s2)
  | _, _ => return none

/-- The argument of `set_variables_constant` (`problem.py:146-159`): anything hashable, a tuple included, is one key. -/
inductive KeyArg (K : Type) where
  | hashable (k : K)
  | list (ks : List K)

/-- What a user can do with a problem. -/
inductive POp (K S : Type) where
  | addResidual (r : Residual K S) (l : Loss)
  | addResiduals (rs : List (Residual K S)) (l : LossArg)
  | addVariable (k : K) (x : S)
  | setConstant (ks : KeyArg K)
  | solve
  | errorJacCost (vars : Option (List (K × S)))
  | covarianceBlock (k1 k2 : K)
  | computeCovariance
  /-- `result["variables"][k] = x` on a dictionary that `solve` returned (or on `problem.variables`). -/
  | editResult (a : ℕ) (k : K) (x : S)

/-- What a call returns. -/
inductive POut where
  | unit
  | result (r : SolveResult)
  | lin (L : Lin)
  | block (B : Option DMat)
  | cov (M : Option SqMat)

/-- `m` with its value turned into a `POut`. -/
def PM.out {α : Type} (m : PM K S α) (f : α → POut) : PM K S POut := do
  let a ← m
  return f a

/-- One call: `problem.py:119-140` (`add_residual`), `142-144` (`add_variable`), `146-159` (`set_variables_constant`) and
the methods above. -/
noncomputable def PObj.call (o : VarOps S) : POp K S → PM K S POut
  | .addResidual r l =>
    (PM.modify fun p => { p with residuals := p.residuals ++ [r], losses := p.losses ++ [l] }).out fun _ => .unit
  | .addResiduals rs la =>
    (PM.modify fun p => { p with
      residuals := p.residuals ++ rs
      losses := p.losses ++ match la with
        | .one l => rs.map fun _ => l
        | .many ls => ls }).out fun _ => .unit
  | .addVariable k x => (PM.modify fun p => { p with varsInit := dictSet p.varsInit k x }).out fun _ => .unit
  | .setConstant ks =>
    (PM.modify fun p => { p with
      constKeys := (match ks with
        | .hashable k => [k]
        | .list l => l).foldl (fun acc k => if k ∈ acc then acc else acc ++ [k]) p.constKeys }).out fun _ => .unit
  | .solve => (objSolve o).out .result
  | .errorJacCost vars => (objErrorJacCost o vars).out .lin
  | .covarianceBlock k1 k2 => (objCovarianceBlock k1 k2).out .block
  | .computeCovariance => objComputeCovariance.out .cov
  | .editResult a k x => (PM.modify fun p => { p with dicts := p.dicts.set a (dictSet (p.dict a) k x) }).out fun _ => .unit

end Verif
