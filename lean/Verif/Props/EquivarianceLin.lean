import Verif.Props.Equivariance
import Verif.Props.Ekf

/-!
C91 for linear models: other coordinates, a part of the state on its own, further components.
-/

namespace Verif

open Matrix

variable {U : Type} {n n' : ℕ}

/-- A logged linear measurement `y = C x`, with noise covariance `R`. -/
structure LinLog (n : ℕ) where
  m : ℕ
  C : Mat m n
  R : Mat m m
  y : Vec m
  stamp : ℝ

/-- The measurement as the filter sees it. -/
noncomputable def LinLog.log (l : LinLog n) : StMeas (Vec n) n := ⟨linMeas l.C l.R l.y (some l.stamp), l.stamp, rfl⟩

/-- The estimate of `M x`: mean `M μ`, covariance `M P Mᵀ`. -/
noncomputable def mapEst (M : Mat n' n) (x : SWC (Vec n) n) : SWC (Vec n') n' :=
  ⟨⟨M *ᵥ x.state.value, x.state.stamp⟩, M * x.cov * Mᵀ⟩

/-- The change of description `x ↦ M x`. -/
noncomputable def linChange (U : Type) (M : Mat n' n) : Change (Vec n) (Vec n') U U n n' := ⟨fun v => M *ᵥ v, id, M, 0⟩

theorem linChange_est (M : Mat n' n) : (linChange U M).est = mapEst M := by
  funext x
  obtain ⟨⟨v, s⟩, P⟩ := x
  cases s <;> simp [linChange, Change.est, Change.st, mapEst]

/-- C91 for linear models: let `x' = M x` satisfy a linear system of its own (`A' M = M A`, `b' = M b`, `Q' = M Q Mᵀ`) and let every
measurement be a function of `x'` (`C = C' M`). Then the filter run on the system of `x'` gives exactly the image of the filter
run on the system of `x`. `M` invertible: other coordinates. `M` a projection: a part of the state that evolves on its own and is all
that is measured. `M` injective: further components, determined by the others. -/
theorem C91_linear (M : Mat n' n) (A : Inp U → ℝ → Mat n n) (b : Inp U → ℝ → Vec n) (Q : Inp U → ℝ → Mat n n)
    (A' : Inp U → ℝ → Mat n' n') (b' : Inp U → ℝ → Vec n') (Q' : Inp U → ℝ → Mat n' n')
    (hA : ∀ u dt, A' u dt * M = M * A u dt) (hb : ∀ u dt, b' u dt = M *ᵥ b u dt) (hQ : ∀ u dt, Q' u dt = M * Q u dt * Mᵀ)
    (rej : Bool) (chi : ℕ → ℝ) (x0 : SWC (Vec n) n) (ins : List (StInp U)) (meas : List (LinLog n')) :
    runFilter (ekfApi (vecEnv (linProcModel A' b' Q') rej chi)) (mapEst M x0) ins (meas.map LinLog.log)
      = (runFilter (ekfApi (vecEnv (linProcModel A b Q) rej chi)) x0 ins
          (meas.map fun l => LinLog.log ⟨l.m, l.C * M, l.R, l.y, l.stamp⟩)).map (List.map (mapEst M)) := by
  have hi : ∀ u : Inp U, (linChange U M).input u = u := by
    rintro ⟨v, s⟩
    cases s <;> simp [linChange, Change.input]
  have h : SameSystem (linChange U M) (vecEnv (linProcModel A b Q) rej chi) (vecEnv (linProcModel A' b' Q') rej chi) :=
    { evaluate := fun x u dt => by
        rw [hi]
        show (⟨A' u dt *ᵥ (M *ᵥ x.value) + b' u dt, _⟩ : St (Vec n')) = ⟨M *ᵥ (A u dt *ᵥ x.value + b u dt), _⟩
        have e1 : A' u dt *ᵥ (M *ᵥ x.value) + b' u dt = M *ᵥ (A u dt *ᵥ x.value + b u dt) := by
          rw [mulVec_mulVec, hA, hb, mulVec_add, mulVec_mulVec]
        rw [e1]
        rfl
      jacobian := fun x u dt => by rw [hi]; exact hA u dt
      covariance := fun x u dt => by rw [hi]; exact hQ u dt
      plus := fun v dx => (mulVec_add M v dx).symm
      reject := rfl
      chi2 := rfl }
  have key := C91_run_filter h x0 ins (meas.map fun l => LinLog.log ⟨l.m, l.C * M, l.R, l.y, l.stamp⟩) (meas.map LinLog.log) (by
    rw [List.forall₂_map_left_iff, List.forall₂_map_right_iff]
    refine List.forall₂_same.mpr fun l _ => ⟨(add_zero _).symm, linMeasModel l.C l.R, ?_, ?_⟩
    · exact
        { evaluate := fun x => congrArg some (mulVec_mulVec x.value l.C M)
          jacobian := fun x => rfl
          covariance := fun x => rfl }
    · show linMeas l.C l.R l.y (some l.stamp) = ⟨l.m, l.y, some (l.stamp + 0), linMeasModel l.C l.R⟩
      rw [add_zero]
      rfl)
  rw [linChange_est] at key
  have e : ins.map (linChange U M).logged = ins := by
    conv_rhs => rw [← List.map_id ins]
    refine List.map_congr_left fun u _ => ?_
    show (⟨u.value, u.stamp + 0⟩ : StInp U) = u
    rw [add_zero]
  rw [e] at key
  exact key

/-- A part of the state on its own: the first component of a state of two, where the second is driven by the first. -/
example (rej : Bool) (chi : ℕ → ℝ) (x0 : SWC (Vec 2) 2) (ins : List (StInp (Vec 1))) (meas : List (LinLog 1)) :
    runFilter (ekfApi (vecEnv (linProcModel (fun (_ : Inp (Vec 1)) _ => (1 : Mat 1 1)) (fun u dt => dt • u.value) (fun _ dt => dt • 1)) rej chi))
        (mapEst !![1, 0] x0) ins (meas.map LinLog.log)
      = (runFilter (ekfApi (vecEnv (linProcModel (fun (_ : Inp (Vec 1)) dt => (!![1, 0; dt, 1] : Mat 2 2))
          (fun u dt => ![dt * u.value 0, 0]) (fun _ dt => !![dt, 0; 0, 1])) rej chi)) x0 ins
          (meas.map fun l => LinLog.log ⟨l.m, l.C * (!![1, 0] : Mat 1 2), l.R, l.y, l.stamp⟩)).map (List.map (mapEst !![1, 0])) := by
  refine C91_linear (!![1, 0] : Mat 1 2) _ _ _ _ _ _ ?_ ?_ ?_ rej chi x0 ins meas
  · intro u dt; ext i j; fin_cases i; fin_cases j <;> simp [Matrix.mul_apply, Fin.sum_univ_two]
  · intro u dt; ext i; fin_cases i; simp [mulVec, dotProduct, Fin.sum_univ_two]
  · intro u dt; ext i j; fin_cases i; fin_cases j; simp [Matrix.mul_apply, Fin.sum_univ_two]

end Verif
