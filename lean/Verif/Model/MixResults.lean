import Verif.Model.Results
import Verif.Model.Imm

/-!
Evaluation of mixtures and Monte Carlo experiments: `navlie/utils/common.py:934-1061` (`MixtureResult`, `MixtureResultList.from_estimates`,
`monte_carlo`).
-/

namespace Verif

variable {V : Type} {n M : ℕ}

/-- `common.py:934-957` (`MixtureResult`): the attributes of `GaussianResult` and `model_probabilities`. -/
structure MResult (V : Type) (n M : ℕ) where
  res : GResult V n
  probs : Fin M → ℝ

/-- `common.py:948-957` (`MixtureResult.__init__`): the result of the Gaussian that `gaussian_mixing` makes of the modes. `o` and `ops` are
the operations of the same state class. -/
noncomputable def mixtureResult (o : StateOps V n) (ops : ManifoldOps V n) (x : Mixture V n M) (truth : V) : Except Err (MResult V n M) := do
  let g ← gaussianMixing ops x.probs x.states
  let r ← gaussianResult o g.state g.cov truth
  return ⟨r, x.probs⟩

/-- `common.py:985-1015` (`MixtureResultList.from_estimates`), at least one mode: the truth is interpolated at the stamps of the first
modes. The list of results stands for the stacked arrays of `MixtureResultList.__init__` (`common.py:977-981`). -/
noncomputable def mixtureFromEstimates (o : StateOps V n) (ops : ManifoldOps V n) (m : InterpMethod) (ests : List (Mixture V n (M + 1)))
    (truths : List (V × ℝ)) : Except Err (List (MResult V n (M + 1))) := do
  let out ← stateInterp o m truths (.list (ests.map fun e => stampItem (e.states 0).state.stamp))
  (ests.zip out.toList).mapM fun p => mixtureResult o ops p.1 p.2.1

/-- One completed job of `joblib.Parallel`: its result is stored at the index of the job. -/
def jobDone {α : Type} (trial : ℕ → Except Err α) (slots : List (Option α)) (i : ℕ) : Except Err (List (Option α)) := do
  let r ← trial i
  return slots.set i (some r)

/-- A slot of the result list; it is read after all jobs are done. -/
def slotValue {α : Type} : Option α → Except Err α
  | some a => .ok a
  | none => .error .indexError

/-- `common.py:1053-1059`: `Parallel(n_jobs)(delayed(trial)(i) for i in range(num_trials))`. `done` is the order in which the jobs are
finished, which depends on the number of jobs and on the machine; the results are returned by index. An exception in a job is raised
(which one of several, joblib leaves open: here that of the first job in `done`). Simplification: a trial is a function of its index (no
state is shared between trials). -/
def parallel {α : Type} (num : ℕ) (done : List ℕ) (trial : ℕ → Except Err α) : Except Err (List α) := do
  let slots ← done.foldlM (jobDone trial) (List.replicate num none)
  slots.mapM slotValue

/-- `common.py:1018-1061` (`monte_carlo`); the results of the trials enter `MonteCarloResult` by their arrays `nees`, `ees`, `error`. -/
noncomputable def monteCarlo (dof num : ℕ) (done : List ℕ) (trial : ℕ → Except Err Trial) : Except Err MonteCarlo := do
  let ts ← parallel num done trial
  monteCarloResult dof ts

end Verif
