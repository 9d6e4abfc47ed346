import Mathlib.Data.Real.Basic
import Mathlib.LinearAlgebra.Matrix.NonsingularInverse

/-!
Shared vocabulary of the model: Python exceptions as values, states with stamps,
models as parameters, and the only piece of `numpy.linalg` that can raise.
-/

namespace Verif

/-- Python exceptions that the modelled code can raise (explicitly or through the interpreter / numpy). -/
inductive Err where
  | valueError       -- `raise ValueError(...)`, also numpy shape / concatenation errors
  | runtimeError     -- `raise RuntimeError(...)`
  | typeError        -- e.g. `None - 1.0`
  | attributeError   -- e.g. `None.stamp`
  | indexError       -- list index out of range
  | keyError         -- dict lookup
  | unboundLocal     -- local variable read before assignment
  | linAlgError      -- `numpy.linalg.LinAlgError: Singular matrix`
  | zeroDivision     -- `ZeroDivisionError`
  | notImplemented   -- `raise NotImplementedError`
  | nan              -- not an exception: the result would contain NaN (division by zero in numpy)
  | diverges         -- not an exception: a Python loop that has not ended within the fuel of the model
  deriving DecidableEq, Repr

/-- `navlie/types.py:48-183` (`State`): a value on a manifold together with an optional stamp.
Simplification: `state_id` is omitted here (it is modelled in `Verif.Model.Composite`). -/
structure St (V : Type) where
  value : V
  stamp : Option ℝ

/-- `navlie/types.py:10-45` (`Input`): an input value and an optional stamp. -/
structure Inp (U : Type) where
  value : U
  stamp : Option ℝ

/-- Real matrices with numeric dimensions. -/
abbrev Mat (m n : ℕ) := Matrix (Fin m) (Fin n) ℝ

/-- Real vectors. -/
abbrev Vec (n : ℕ) := Fin n → ℝ

/-- `navlie/types.py:261-451` (`ProcessModel`) as a parameter: the three methods the filters call.
A user model that raises is outside the model. `n` is the number of degrees of freedom of the state. -/
structure ProcModel (V U : Type) (n : ℕ) where
  evaluate : St V → Inp U → ℝ → St V
  jacobian : St V → Inp U → ℝ → Mat n n
  covariance : St V → Inp U → ℝ → Mat n n

/-- `navlie/types.py:186-258` (`MeasurementModel`) as a parameter. `evaluate` may return `None`
(the documented way of saying "no measurement available", `filters.py:178-180`). -/
structure MeasModel (V : Type) (n m : ℕ) where
  evaluate : St V → Option (Vec m)
  jacobian : St V → Mat m n
  covariance : St V → Mat m m

/-- `navlie/types.py:454-509` (`Measurement`): value, stamp, model; `minus` is `value - y_check`
(`types.py:502-509`). -/
structure Meas (V : Type) (n : ℕ) where
  m : ℕ
  value : Vec m
  stamp : Option ℝ
  model : MeasModel V n m

/-- `navlie/types.py:512-570` (`StateWithCovariance`) of a state with `n` degrees of freedom. -/
structure SWC (V : Type) (n : ℕ) where
  state : St V
  cov : Mat n n

/-- `navlie/types.py:560-564` (`StateWithCovariance.symmetrize`): `0.5 * (P + P.T)`. -/
noncomputable def symmetrize {n : ℕ} (P : Mat n n) : Mat n n :=
  (1 / 2 : ℝ) • (P + P.transpose)

open Classical in
/-- `numpy.linalg.solve(A, B)`: raises `LinAlgError` when `A` is singular, otherwise `A⁻¹ B`
(exact arithmetic). -/
noncomputable def solve {m : ℕ} {k : Type} (A : Mat m m) (B : Matrix (Fin m) k ℝ) :
    Except Err (Matrix (Fin m) k ℝ) :=
  if A.det = 0 then .error .linAlgError else .ok (A⁻¹ * B)

end Verif
