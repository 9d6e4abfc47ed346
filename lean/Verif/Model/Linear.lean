import Verif.Model.Ekf

/-!
Vector states and linear models.
-/

namespace Verif

open Matrix

/-- `navlie/lib/models.py:346-378` (`LinearMeasurement`): `evaluate` is `C x`, `jacobian` is `C`,
`covariance` is `R`. -/
def linMeasModel {n m : ℕ} (C : Mat m n) (R : Mat m m) : MeasModel (Vec n) n m where
  evaluate x := some (C *ᵥ x.value)
  jacobian _ := C
  covariance _ := R

/-- A measurement with a linear model. -/
def linMeas {n m : ℕ} (C : Mat m n) (R : Mat m m) (y : Vec m) (stamp : Option ℝ) :
    Meas (Vec n) n where
  m := m
  value := y
  stamp := stamp
  model := linMeasModel C R

/-- A linear process model `x⁺ = A(u, dt) x + b(u, dt)` with covariance `Q(u, dt)` on a vector state
(the class to which `SingleIntegrator`, `DoubleIntegrator`, ... of `navlie/lib/models.py:23-201`
belong). -/
def linProcModel {U : Type} {n : ℕ} (A : Inp U → ℝ → Mat n n) (b : Inp U → ℝ → Vec n)
    (Q : Inp U → ℝ → Mat n n) : ProcModel (Vec n) U n where
  evaluate x u dt := { value := A u dt *ᵥ x.value + b u dt, stamp := x.stamp }
  jacobian _ u dt := A u dt
  covariance _ u dt := Q u dt

end Verif
