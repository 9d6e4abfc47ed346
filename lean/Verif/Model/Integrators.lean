import Verif.Model.States
import Mathlib.Data.Matrix.Block
import Mathlib.Data.Matrix.ColumnRowPartitioned

/-!
The integrator process models: `navlie/lib/models.py:23-201`. An input value is a list of reals (`u.value.ravel()`).
-/

namespace Verif

open Matrix

/-- `a + b` of one-dimensional numpy arrays, with broadcasting of an array of one entry. -/
def npAdd (a b : List ℝ) : Except Err (List ℝ) :=
  if a.length = b.length then .ok (List.zipWith (· + ·) a b)
  else if b.length = 1 then .ok (a.map (· + b.getD 0 0))
  else if a.length = 1 then .ok (b.map (a.getD 0 0 + ·))
  else .error .valueError

/-- A column of numbers used where one of `n` entries is expected: one entry is broadcast. -/
def bcastTo (n : ℕ) (l : List ℝ) : Except Err (Vec n) :=
  if l.length = n then .ok (toVec n l)
  else if l.length = 1 then .ok (fun _ => l.getD 0 0)
  else .error .valueError

/-- `models.py:39-57, 84-95` (`SingleIntegrator.__init__`, `DoubleIntegrator.__init__`): the dimension read off the shape of `Q`;
a one-dimensional array has no `shape[1]`. -/
def integNew (shape : List ℕ) : Except Err ℕ :=
  match shape with
  | r :: c :: _ => if r ≠ c then .error .valueError else .ok r
  | _ => .error .indexError

/-- `models.py:139-156` (`DoubleIntegratorWithBias.__init__`): `int(Q.shape[0] / 2)`. -/
def integBiasNew (shape : List ℕ) : Except Err ℕ := do
  let r ← integNew shape
  return r / 2

/-- `models.py:59-62` (`SingleIntegrator.evaluate`). -/
def siEvaluate (x : St (List ℝ)) (u : List ℝ) (dt : ℝ) : Except Err (St (List ℝ)) := do
  let v ← npAdd x.value (u.map (dt * ·))
  return { x with value := v }

variable {d : ℕ}

/-- `models.py:64-65` (`SingleIntegrator.jacobian`). -/
def siJacobian (d : ℕ) : Mat d d := 1

/-- `models.py:67-68` (`SingleIntegrator.covariance`). -/
def siCovariance (Q : Mat d d) (dt : ℝ) : Mat d d := dt ^ 2 • Q

/-- `models.py:107-110` (`DoubleIntegrator.jacobian`): position, then velocity. -/
def diA (dt : ℝ) : Matrix (Fin d ⊕ Fin d) (Fin d ⊕ Fin d) ℝ := fromBlocks 1 (dt • 1) 0 1

/-- `models.py:116-120` (`DoubleIntegrator.input_jacobian`). -/
noncomputable def diL (dt : ℝ) : Matrix (Fin d ⊕ Fin d) (Fin d) ℝ := fromRows ((0.5 * dt ^ 2 : ℝ) • 1) (dt • 1)

/-- `models.py:97-105` (`DoubleIntegrator.evaluate`): only the first `dim` entries of the input are used; fewer do not fit. -/
noncomputable def diEvaluate (x : St (Fin d ⊕ Fin d → ℝ)) (u : List ℝ) (dt : ℝ) : Except Err (St (Fin d ⊕ Fin d → ℝ)) :=
  if u.length < d then .error .valueError
  else .ok { x with value := diA dt *ᵥ x.value + diL dt *ᵥ toVec d u }

/-- `models.py:112-114` (`DoubleIntegrator.covariance`). -/
noncomputable def diCovariance (Q : Mat d d) (dt : ℝ) : Matrix (Fin d ⊕ Fin d) (Fin d ⊕ Fin d) ℝ :=
  diL dt * Q * (diL dt)ᵀ

/-- The state of a double integrator with bias: position, velocity, bias. -/
abbrev DbIdx (d : ℕ) : Type := (Fin d ⊕ Fin d) ⊕ Fin d

/-- `models.py:166-172`: the random walk in the input, zero if there is none. -/
def dbWalk (d : ℕ) (u : List ℝ) : Except Err (Vec d) := if d < u.length then bcastTo d (u.drop d) else .ok 0

/-- `models.py:158-178` (`DoubleIntegratorWithBias.evaluate`): the entries of the input beyond `dim` are the random walk. -/
noncomputable def dbEvaluate (x : St (DbIdx d → ℝ)) (u : List ℝ) (dt : ℝ) : Except Err (St (DbIdx d → ℝ)) := do
  let a ← bcastTo d (u.take d)
  let w ← dbWalk d u
  let b : Vec d := fun i => x.value (.inr i)
  return { x with
    value := Sum.elim (diA dt *ᵥ (fun i => x.value (.inl i)) + diL dt *ᵥ (a - b)) (b + dt • w) }

/-- `models.py:180-190` (`DoubleIntegratorWithBias.jacobian`). -/
noncomputable def dbJacobian (dt : ℝ) : Matrix (DbIdx d) (DbIdx d) ℝ := fromBlocks (diA dt) (-diL dt) 0 1

/-- `models.py:196-201` (`DoubleIntegratorWithBias.input_jacobian`). -/
noncomputable def dbL (dt : ℝ) : Matrix (DbIdx d) (Fin d ⊕ Fin d) ℝ := fromBlocks (diL dt) 0 0 (dt • 1)

/-- `models.py:192-194` (`DoubleIntegratorWithBias.covariance`). -/
noncomputable def dbCovariance (Q : Matrix (Fin d ⊕ Fin d) (Fin d ⊕ Fin d) ℝ) (dt : ℝ) : Matrix (DbIdx d) (DbIdx d) ℝ :=
  dbL dt * Q * (dbL dt)ᵀ

/-! ### `StateWithCovariance` -/

/-- `navlie/types.py:520-550` (`StateWithCovariance.__init__`), from the shape of the covariance and the number of degrees of
freedom of the state: accepts or raises. -/
def swcCheck (shape : List ℕ) (dof : ℕ) : Except Err Unit :=
  match shape with
  | r :: c :: _ => if r ≠ c then .error .valueError else if r ≠ dof then .error .valueError else .ok ()
  | _ => .error .indexError

/-- The constructor for a two-dimensional covariance. -/
def swcNew {V : Type} (dof : V → ℕ) (x : St V) (P : DMat) : Except Err (St V × DMat) := do
  let _ ← swcCheck [P.rows, P.cols] (dof x.value)
  return (x, P)

/-- `navlie/types.py:560-564` (`symmetrize`). -/
noncomputable def swcSymmetrize {V : Type} (s : St V × DMat) : St V × DMat :=
  (s.1, ⟨s.2.rows, s.2.cols, fun i j => 0.5 * (s.2.get i j + s.2.get j i)⟩)

/-- `navlie/types.py:566-567` (`copy`). -/
def swcCopy {V : Type} (dof : V → ℕ) (s : St V × DMat) : Except Err (St V × DMat) := swcNew dof s.1 s.2

end Verif
