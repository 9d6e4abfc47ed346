import Verif.Model.Stamps
import Verif.Model.Residuals
import Verif.Model.Problem

/-!
`BatchEstimator.solve` (`navlie/batch/estimator.py:88-228`): the variables, the factors, and the results.
-/

namespace Verif

open Matrix

variable {V U : Type} {n : ℕ}

/-- `estimator.py:160-163`: one propagation; `x.stamp + dt` with the stamp that the process model returns. -/
noncomputable def batchAdvance (f : ProcModel V U n) (x : St V) (u : StInp U) (dt : ℝ) : Except Err (St V) :=
  match (f.evaluate x ⟨u.value, some u.stamp⟩ dt).stamp with
  | none => .error .typeError
  | some t => .ok ⟨(f.evaluate x ⟨u.value, some u.stamp⟩ dt).value, some (t + dt)⟩

open Classical in
/-- `estimator.py:157-158`: `dt` must not be negative. -/
noncomputable def batchCheckDt (dt : ℝ) : Except Err Unit := if dt < 0 then .error .runtimeError else .ok ()

open Classical in
/-- `estimator.py:165-168`: the index of the input of the next step. -/
noncomputable def batchNextIdx (s nxt : ℝ) (idx : ℕ) : ℕ := if s < nxt then idx else idx + 1

/-- `estimator.py:153-168`: the loop over `stamps[1:]`; `idx` is `input_idx`, `x` the last state. -/
noncomputable def batchPropagate (f : ProcModel V U n) (inputs : List (StInp U)) (istamps : List ℝ) :
    List ℝ → ℕ → St V → Except Err (List (St V))
  | [], _, _ => .ok []
  | s :: ss, idx, x => do
    let u ← pyGet inputs idx
    let dt ← stampDiff (some s) x.stamp
    let _ ← batchCheckDt dt
    let x' ← batchAdvance f x u dt
    let nxt ← pyGet istamps (idx + 1)
    let rest ← batchPropagate f inputs istamps ss (batchNextIdx s nxt idx) x'
    return x' :: rest

/-- The residuals that `BatchEstimator` creates, with the keys they are attached to. -/
inductive BFactor (V U : Type) (n : ℕ) where
  | prior (key : ℕ) (x0 : V) (P0 : Mat n n)
  | process (k1 k2 : ℕ) (u : StInp U)
  | meas (key : ℕ) (y : StMeas V n)

/-- `estimator.py:189-201`: a process residual between the states nearest to consecutive inputs. -/
noncomputable def batchProcess (stamps : List ℝ) : List (StInp U) → Except Err (List (BFactor V U n))
  | u :: u' :: us => do
    let k1 ← findNearestIdx stamps u.stamp
    let k2 ← findNearestIdx stamps u'.stamp
    let rest ← batchProcess stamps (u' :: us)
    return .process k1 k2 u :: rest
  | _ => .ok []

/-- `estimator.py:203-207`: a measurement residual on the state nearest to the measurement. -/
noncomputable def batchMeas (stamps : List ℝ) : List (StMeas V n) → Except Err (List (BFactor V U n))
  | [] => .ok []
  | y :: ys => do
    let k ← findNearestIdx stamps y.stamp
    let rest ← batchMeas stamps ys
    return .meas k y :: rest

/-- What has been handed to `Problem` before `problem.solve()`: the variables in order of their keys
`0, 1, ...` and the residuals in the order they were added. -/
structure BatchGraph (V U : Type) (n : ℕ) where
  vars : List (St V)
  factors : List (BFactor V U n)

/-- `estimator.py:126-139`: the inputs (or measurements) that are used, in time order. -/
noncomputable def batchUsed {α : Type} (stamp : α → ℝ) (t0 : ℝ) (l : List α) : List α :=
  dropBefore stamp t0 (sortByStamp stamp l)

/-- `estimator.py:141-148`: the time stamps of the variables; `rnd` is `round(., 12)`. -/
noncomputable def batchStamps (rnd : ℝ → ℝ) (us : List (StInp U)) (ys : List (StMeas V n)) : List ℝ :=
  npUnique (us.map (fun u => rnd u.stamp) ++ ys.map fun y => rnd y.stamp)

/-- `estimator.py:150-155`: the first state is `x0` (`IndexError` if there is no data at all). -/
noncomputable def batchStates (f : ProcModel V U n) (rnd : ℝ → ℝ) (x0 : St V) (us : List (StInp U)) :
    List ℝ → Except Err (List (St V))
  | [] => .error .indexError
  | _ :: ss => do
    let xs ← batchPropagate f us (us.map fun u => rnd u.stamp) ss 0 x0
    return x0 :: xs

/-- `estimator.py:126-207`: everything up to `problem.solve()`. A missing stamp of `x0` is a `TypeError`. -/
noncomputable def batchGraph (f : ProcModel V U n) (rnd : ℝ → ℝ) (x0 : St V) (P0 : Mat n n)
    (inputs : List (StInp U)) (meas : List (StMeas V n)) : Except Err (BatchGraph V U n) :=
  match x0.stamp with
  | none => .error .typeError
  | some t0 => do
    let us := batchUsed StInp.stamp t0 inputs
    let ys := batchUsed StMeas.stamp t0 meas
    let stamps := batchStamps rnd us ys
    let xs ← batchStates f rnd x0 us stamps
    let ps ← batchProcess stamps us
    let ms ← batchMeas stamps ys
    return ⟨xs, .prior 0 x0.value P0 :: ps ++ ms⟩

/-! ### The problem that is solved, and the results -/

/-- A matrix as an array. -/
def DMat.ofMat {m n : ℕ} (A : Mat m n) : DMat :=
  ⟨m, n, fun i j => if h : i < m ∧ j < n then A ⟨i, h.1⟩ ⟨j, h.2⟩ else 0⟩

/-- A residual class as a residual of `Problem`. -/
noncomputable def toResidual {S : Type} {m n : ℕ} (keys : List ℕ)
    (eval : List S → Option (List Bool) → Except Err (ResOut m n)) : Residual ℕ S where
  keys := keys
  error xs := (eval xs none).map fun r => List.ofFn r.error
  jacobians xs flags := (eval xs (some flags)).map fun r => (r.jacobians.getD []).map (Option.map DMat.ofMat)

/-- The constructors of the three residuals (`estimator.py:184-186`, `199-201`, `206-207`). -/
noncomputable def BFactor.residual (o : StateOps V n) (f : ProcModel V U n) :
    BFactor V U n → Except Err (Residual ℕ (St V))
  | .prior k x0 P0 => (PriorRes.new x0 P0).map fun r => toResidual [k] (r.evaluate o)
  | .process k1 k2 u => .ok (toResidual [k1, k2] (processResidual o f ⟨u.value, some u.stamp⟩))
  | .meas k y => .ok (toResidual [k] (measurementResidual y.meas))

/-- States of `n` degrees of freedom as variables (`types.py:48-183`): `plus` keeps the stamp. -/
def StateOps.varOps (o : StateOps V n) : VarOps (St V) where
  dof _ := n
  plus x dx := if dx.length = n then .ok ⟨o.plus x.value fun i => dx.getD i 0, x.stamp⟩ else .error .valueError

/-- `estimator.py:180-207`: the problem. All residuals have the default L2 loss. -/
noncomputable def BatchGraph.problem (o : StateOps V n) (f : ProcModel V U n) (cfg : ProbCfg) (g : BatchGraph V U n) :
    Except Err (Prob ℕ (St V)) := do
  let rs ← g.factors.mapM (BFactor.residual o f)
  let P := g.vars.zipIdx.foldl (fun P p => P.addVariable p.2 p.1) (Prob.new cfg)
  return rs.foldl (fun P r => P.addResidual r l2Loss) P

/-- `StateWithCovariance(state, None)` is an `AttributeError` (`types.py:536`, `None.shape`). -/
def needBlock : Option DMat → Except Err DMat
  | none => .error .attributeError
  | some b => .ok b

/-- `estimator.py:212-216`: a covariance block for each variable (`None` is refused by `StateWithCovariance`). -/
noncomputable def batchResults (P : Prob ℕ (St V)) : List (ℕ × St V) → Except Err (List (St V × DMat))
  | [] => .ok []
  | (k, x) :: l => do
    let r ← P.getCovarianceBlock k k
    let b ← needBlock r.1
    let rest ← batchResults r.2 l
    return (x, b) :: rest

/-- `estimator.py:88-228` (`BatchEstimator.solve`). -/
noncomputable def batchSolve (o : StateOps V n) (f : ProcModel V U n) (rnd : ℝ → ℝ) (cfg : ProbCfg) (x0 : St V)
    (P0 : Mat n n) (inputs : List (StInp U)) (meas : List (StMeas V n)) : Except Err (List (St V × DMat)) := do
  let g ← batchGraph f rnd x0 P0 inputs meas
  let P ← g.problem o f cfg
  let P' ← P.solve o.varOps
  batchResults P' P'.vars

end Verif
