import Verif.Model.Ekf
import Mathlib.Data.Matrix.Block
import Mathlib.Algebra.BigOperators.Fin

/-!
A filter of a `CompositeState` with a `CompositeProcessModel` and `CompositeMeasurementModel`s, with dimensions in the types:
`N` sub-states, the `i`-th one with values in `V i` and `n i` degrees of freedom. (`Model/Composite.lean` models the same classes
with the dynamic shapes, the identifiers and the exceptions; `blockDiag_array`, `padded_array` in `Props/Decouple.lean` relate the two.)

Simplification: the sub-models do not look at stamps (of states or inputs) and keep the stamp of the state.
-/

namespace Verif

open Matrix

/-- A system: a state class (`plus`), a process model (`types.py:261-357`) whose methods do not depend on stamps. -/
structure Sys (V U : Type) (n : ℕ) where
  evaluate : V → U → ℝ → V
  jacobian : V → U → ℝ → Mat n n
  covariance : V → U → ℝ → Mat n n
  plus : V → Vec n → V

/-- An `ExtendedKalmanFilter` of one system alone (`filters.py:55-92`). -/
def Sys.env {V U : Type} {n : ℕ} (s : Sys V U n) (rej : Bool) (chi2 : ℕ → ℝ) : EkfEnv V U n where
  proc :=
    { evaluate := fun x u dt => ⟨s.evaluate x.value u.value dt, x.stamp⟩
      jacobian := fun x u dt => s.jacobian x.value u.value dt
      covariance := fun x u dt => s.covariance x.value u.value dt }
  rejectOutliers := rej
  plus := s.plus
  chi2ppf99 := chi2

/-- A measurement model of one system (`types.py:186-258`) whose methods do not depend on stamps. -/
structure Sensor (V : Type) (n m : ℕ) where
  evaluate : V → Option (Vec m)
  jacobian : V → Mat m n
  covariance : V → Mat m m

/-- It, used with the filter of the system alone. -/
def Sensor.model {V : Type} {n m : ℕ} (h : Sensor V n m) : MeasModel V n m where
  evaluate x := h.evaluate x.value
  jacobian x := h.jacobian x.value
  covariance x := h.covariance x.value

variable {N : ℕ} {V U : Fin N → Type} {n : Fin N → ℕ}

/-- The coordinate of the composite that is the `a`-th coordinate of the `i`-th sub-state (`composite.py:85-95`, `get_slices`):
consecutive slices. -/
def coord (n : Fin N → ℕ) (i : Fin N) (a : Fin (n i)) : Fin (∑ i, n i) := finSigmaFinEquiv ⟨i, a⟩

/-- `scipy.linalg.block_diag(*blocks)`. -/
def blockDiag (A : (i : Fin N) → Mat (n i) (n i)) : Mat (∑ i, n i) (∑ i, n i) :=
  (blockDiagonal' A).submatrix finSigmaFinEquiv.symm finSigmaFinEquiv.symm

/-- The entry of a row of `jac` (below) at a coordinate of a sub-state: that of `jac_sub` at the `i`-th sub-state, zero elsewhere. -/
def padEntry (i : Fin N) (row : Vec (n i)) (p : (j : Fin N) × Fin (n j)) : ℝ := if h : p.1 = i then row (h ▸ p.2) else 0

/-- `composite.py:554-562`: `jac = np.zeros((rows, x.dof)); jac[:, slc] = jac_sub`. -/
def padded {m : ℕ} (i : Fin N) (J : Mat m (n i)) : Mat m (∑ i, n i) := fun r b => padEntry i (J r) (finSigmaFinEquiv.symm b)

/-- The value of a composite state: the list of sub-states, each with its own stamp (`composite.py:7-48`). -/
abbrev SubStates (V : Fin N → Type) : Type := (i : Fin N) → St (V i)

/-- The value of a composite input: the list of inputs (`composite.py:348-361`). -/
abbrev SubInputs (U : Fin N → Type) : Type := (i : Fin N) → Inp (U i)

/-- An `ExtendedKalmanFilter` of the composite state with `CompositeProcessModel(model_list)` (`composite.py:445-524`) and
`CompositeState.plus` (`composite.py:255-268`). -/
def compositeEnv (s : (i : Fin N) → Sys (V i) (U i) (n i)) (rej : Bool) (chi2 : ℕ → ℝ) :
    EkfEnv (SubStates V) (SubInputs U) (∑ i, n i) where
  proc :=
    { evaluate := fun x u dt => ⟨fun i => ⟨(s i).evaluate (x.value i).value (u.value i).value dt, (x.value i).stamp⟩, x.stamp⟩
      jacobian := fun x u dt => blockDiag fun i => (s i).jacobian (x.value i).value (u.value i).value dt
      covariance := fun x u dt => blockDiag fun i => (s i).covariance (x.value i).value (u.value i).value dt }
  rejectOutliers := rej
  plus v dx i := ⟨(s i).plus (v i).value fun a => dx (coord n i a), (v i).stamp⟩
  chi2ppf99 := chi2

/-- `composite.py:527-567` (`CompositeMeasurementModel`) of the `i`-th sub-state. -/
def Sensor.composite {m : ℕ} {i : Fin N} (h : Sensor (V i) (n i) m) : MeasModel (SubStates V) (∑ i, n i) m where
  evaluate x := h.evaluate (x.value i).value
  jacobian x := padded i (h.jacobian (x.value i).value)
  covariance x := h.covariance (x.value i).value

end Verif
