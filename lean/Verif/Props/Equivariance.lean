import Verif.Lemmas.FilterSim
import Verif.Lemmas.LinAlg

/-!
C91: the extended Kalman filter does not depend on how its state is described. A change of description maps values,
inputs and stamps, and acts linearly on perturbations; if it maps the models of one filter to the models of another, it
maps the whole run of the one to the run of the other.
-/

set_option linter.unusedSectionVars false

namespace Verif

open Matrix

variable {V V' U U' : Type} {n n' : ℕ}

/-- A change of description: of values, of inputs, of perturbations (`dx` becomes `tan dx`), of the origin of time. -/
structure Change (V V' U U' : Type) (n n' : ℕ) where
  val : V → V'
  inp : U → U'
  tan : Mat n' n
  shift : ℝ

/-- The description of a state. -/
noncomputable def Change.st (c : Change V V' U U' n n') (x : St V) : St V' := ⟨c.val x.value, x.stamp.map (· + c.shift)⟩

/-- The description of an input. -/
noncomputable def Change.input (c : Change V V' U U' n n') (u : Inp U) : Inp U' := ⟨c.inp u.value, u.stamp.map (· + c.shift)⟩

/-- The description of an estimate: a covariance `P` of perturbations becomes `M P Mᵀ`. -/
noncomputable def Change.est (c : Change V V' U U' n n') (x : SWC V n) : SWC V' n' := ⟨c.st x.state, c.tan * x.cov * c.tanᵀ⟩

/-- The description of a logged input. -/
noncomputable def Change.logged (c : Change V V' U U' n n') (u : StInp U) : StInp U' := ⟨c.inp u.value, u.stamp + c.shift⟩

/-- The two filters describe the same system: same predictions, Jacobians of the same map, same noise, same updates, same
options. -/
structure SameSystem (c : Change V V' U U' n n') (e : EkfEnv V U n) (e' : EkfEnv V' U' n') : Prop where
  evaluate : ∀ x u dt, e'.proc.evaluate (c.st x) (c.input u) dt = c.st (e.proc.evaluate x u dt)
  jacobian : ∀ x u dt, e'.proc.jacobian (c.st x) (c.input u) dt * c.tan = c.tan * e.proc.jacobian x u dt
  covariance : ∀ x u dt, e'.proc.covariance (c.st x) (c.input u) dt = c.tan * e.proc.covariance x u dt * c.tanᵀ
  plus : ∀ v dx, e'.plus (c.val v) (c.tan *ᵥ dx) = c.val (e.plus v dx)
  reject : e'.rejectOutliers = e.rejectOutliers
  chi2 : e'.chi2ppf99 = e.chi2ppf99

/-- The two models predict the same measurement, with Jacobians of the same map and the same noise. -/
structure SameModel (c : Change V V' U U' n n') {m : ℕ} (h : MeasModel V n m) (h' : MeasModel V' n' m) : Prop where
  evaluate : ∀ x, h'.evaluate (c.st x) = h.evaluate x
  jacobian : ∀ x, h'.jacobian (c.st x) * c.tan = h.jacobian x
  covariance : ∀ x, h'.covariance (c.st x) = h.covariance x

/-- The same measured value, at the same time, of the same quantity. -/
def SameMeas (c : Change V V' U U' n n') (y : StMeas V n) (y' : StMeas V' n') : Prop :=
  y'.stamp = y.stamp + c.shift ∧ ∃ h' : MeasModel V' n' y.meas.m, SameModel c y.meas.model h' ∧
    y'.meas = ⟨y.meas.m, y.meas.value, some (y.stamp + c.shift), h'⟩

theorem symmetrize_congr (M : Mat n' n) (P : Mat n n) : symmetrize (M * P * Mᵀ) = M * symmetrize P * Mᵀ := by
  unfold symmetrize
  simp only [transpose_mul, transpose_transpose, Matrix.mul_smul, Matrix.smul_mul, Matrix.mul_add, Matrix.add_mul,
    Matrix.mul_assoc]

variable {c : Change V V' U U' n n'} {e : EkfEnv V U n} {e' : EkfEnv V' U' n'}

theorem SameSystem.predict (h : SameSystem c e e') (x : SWC V n) (u : Inp U) (dt : ℝ) :
    e'.predict (c.est x) (some (c.input u)) (some dt) none = (e.predict x (some u) (some dt) none).map c.est := by
  have hp : ∀ t, e'.propagate (c.est x) (c.input u) (t + c.shift) dt (c.st x.state)
      = c.est (e.propagate x u t dt x.state) := by
    intro t
    have h1 := h.jacobian x.state u dt
    unfold EkfEnv.propagate
    simp only [Change.est]
    rw [h.evaluate, h.covariance, ← symmetrize_congr]
    congr 1
    · unfold Change.st
      simp only [Option.map_some]
      congr 2
      ring
    · congr 1
      have h2 := congrArg transpose h1
      rw [transpose_mul, transpose_mul] at h2
      calc e'.proc.jacobian (c.st x.state) (c.input u) dt * (c.tan * x.cov * c.tanᵀ)
            * (e'.proc.jacobian (c.st x.state) (c.input u) dt)ᵀ + c.tan * e.proc.covariance x.state u dt * c.tanᵀ
          = (e'.proc.jacobian (c.st x.state) (c.input u) dt * c.tan) * x.cov
            * (c.tanᵀ * (e'.proc.jacobian (c.st x.state) (c.input u) dt)ᵀ)
            + c.tan * e.proc.covariance x.state u dt * c.tanᵀ := by simp only [Matrix.mul_assoc]
        _ = _ := by
          rw [h1, h2]
          simp only [Matrix.mul_add, Matrix.add_mul, Matrix.mul_assoc]
  unfold EkfEnv.predict predictTime
  cases hx : x.state.stamp with
  | some t =>
    have hx' : (c.est x).state.stamp = some (t + c.shift) := by simp [Change.est, Change.st, hx]
    rw [hx']
    simp only [bind, Except.bind]
    by_cases hd : dt < 0
    · simp only [if_pos hd]; rfl
    · simp only [if_neg hd]
      show Except.ok (e'.propagate (c.est x) (c.input u) (t + c.shift) dt (c.st x.state)) = _
      rw [hp]; rfl
  | none =>
    have hx' : (c.est x).state.stamp = none := by simp [Change.est, Change.st, hx]
    rw [hx']
    cases hu : u.stamp with
    | none =>
      have hu' : (c.input u).stamp = none := by simp [Change.input, hu]
      simp only [hu, hu', bind, Except.bind]; rfl
    | some t =>
      have hu' : (c.input u).stamp = some (t + c.shift) := by simp [Change.input, hu]
      simp only [hu, hu', bind, Except.bind]
      by_cases hd : dt < 0
      · simp only [if_pos hd]; rfl
      · simp only [if_neg hd]
        show Except.ok (e'.propagate (c.est x) (c.input u) (t + c.shift) dt (c.st x.state)) = _
        rw [hp]; rfl

theorem SameSystem.fuse (h : SameSystem c e e') (x : SWC V n) (y : Meas V n) (y' : Meas V' n') (rej : Bool)
    {m' : MeasModel V' n' y.m} {s : Option ℝ} (hm : SameModel c y.model m') (hy : y' = ⟨y.m, y.value, s, m'⟩) :
    (e'.fuse (c.est x) y' none rej).map Prod.fst = ((e.fuse x y none rej).map Prod.fst).map c.est := by
  subst hy
  have hG := hm.jacobian x.state
  set G := y.model.jacobian x.state with hGdef
  set G' := m'.jacobian (c.st x.state) with hG'def
  have hGt : c.tanᵀ * G'ᵀ = Gᵀ := by rw [← hG, transpose_mul]
  have hS : G' * (c.tan * x.cov * c.tanᵀ) * G'ᵀ + m'.covariance (c.st x.state)
      = G * x.cov * Gᵀ + y.model.covariance x.state := by
    rw [hm.covariance, ← hGt, ← hG]
    simp only [Matrix.mul_assoc]
  have hPG : c.tan * x.cov * c.tanᵀ * G'ᵀ = c.tan * (x.cov * Gᵀ) := by
    rw [← hGt]
    simp only [Matrix.mul_assoc]
  unfold EkfEnv.fuse
  simp only [Change.est, Option.getD_none, hm.evaluate]
  cases hz : y.model.evaluate x.state with
  | none => rfl
  | some yc =>
    simp only [← hG'def, ← hGdef, hS, hPG, h.chi2]
    set S := G * x.cov * Gᵀ + y.model.covariance x.state
    set z : Vec y.m := fun i => y.value i - yc i
    have key : ∀ o : Bool, ((if o = true then (Except.ok (⟨c.st x.state, c.tan * x.cov * c.tanᵀ⟩, some ⟨y.m, z, S, true⟩)
          : Except Err (SWC V' n' × Option CorrectDetails))
        else do
          let Kt ← solve Sᵀ (c.tan * (x.cov * Gᵀ))ᵀ
          Except.ok (⟨e'.plusSt (c.st x.state) (Ktᵀ *ᵥ z),
            symmetrize ((1 - Ktᵀ * G') * (c.tan * x.cov * c.tanᵀ))⟩, some ⟨y.m, z, S, false⟩)).map Prod.fst)
        = (((if o = true then (Except.ok (x, some ⟨y.m, z, S, true⟩) : Except Err (SWC V n × Option CorrectDetails))
        else do
          let Kt ← solve Sᵀ (x.cov * Gᵀ)ᵀ
          Except.ok (⟨e.plusSt x.state (Ktᵀ *ᵥ z), symmetrize ((1 - Ktᵀ * G) * x.cov)⟩,
            some ⟨y.m, z, S, false⟩)).map Prod.fst).map c.est) := by
      intro o
      cases o with
      | true => rfl
      | false =>
        simp only [Bool.false_eq_true, if_false]
        by_cases hd : (Sᵀ).det = 0
        · unfold solve
          simp only [if_pos hd]
          rfl
        · rw [solve_ok hd, solve_ok hd]
          simp only [bind, Except.bind, Except.map]
          congr 1
          have hK : ((Sᵀ)⁻¹ * (c.tan * (x.cov * Gᵀ))ᵀ)ᵀ = c.tan * ((Sᵀ)⁻¹ * (x.cov * Gᵀ)ᵀ)ᵀ := by
            simp only [transpose_mul, transpose_transpose, Matrix.mul_assoc]
          rw [hK]
          set K := ((Sᵀ)⁻¹ * (x.cov * Gᵀ)ᵀ)ᵀ
          unfold Change.est
          rw [← symmetrize_congr]
          congr 1
          · unfold EkfEnv.plusSt Change.st
            simp only
            rw [← mulVec_mulVec, h.plus]
          · congr 1
            calc (1 - c.tan * K * G') * (c.tan * x.cov * c.tanᵀ)
                = c.tan * x.cov * c.tanᵀ - c.tan * K * (G' * c.tan) * x.cov * c.tanᵀ := by
                  simp only [Matrix.sub_mul, Matrix.one_mul, Matrix.mul_assoc]
              _ = _ := by
                  rw [hG]
                  simp only [Matrix.mul_sub, Matrix.sub_mul, Matrix.one_mul, Matrix.mul_assoc]
    cases rej with
    | false => exact key false
    | true =>
      simp only [if_true]
      cases ho : checkOutlier e.chi2ppf99 z S with
      | error er => rfl
      | ok o => exact key o

theorem SameSystem.correct (h : SameSystem c e e') (x : SWC V n) (y : StMeas V n) (y' : StMeas V' n') (u : Inp U)
    (hy : SameMeas c y y') :
    e'.correct (c.est x) y'.meas (some (c.input u)) none none
      = (e.correct x y.meas (some u) none none).map c.est := by
  obtain ⟨-, m', hm, hy'⟩ := hy
  have hadv : e'.advance (c.est x) y'.meas (some (c.input u)) = (e.advance x y.meas (some u)).map c.est := by
    unfold EkfEnv.advance
    have key : ∀ (z : SWC V n) (tx : ℝ), z.state.stamp = some tx →
        (if y.stamp + c.shift - (tx + c.shift) < -(10 ^ 10 : ℝ) then (Except.error Err.runtimeError : Except Err (SWC V' n'))
          else if y.stamp + c.shift - (tx + c.shift) > (1 / 10 ^ 11 : ℝ)
            then e'.predict (c.est z) (some (c.input u)) (some (y.stamp + c.shift - (tx + c.shift))) none
            else Except.ok (c.est z))
        = (if y.stamp - tx < -(10 ^ 10 : ℝ) then (Except.error Err.runtimeError : Except Err (SWC V n))
          else if y.stamp - tx > (1 / 10 ^ 11 : ℝ)
            then e.predict z (some u) (some (y.stamp - tx)) none else Except.ok z).map c.est := by
      intro z tx hz
      have e1 : y.stamp + c.shift - (tx + c.shift) = y.stamp - tx := by ring
      rw [e1]
      split
      · rfl
      · split
        · exact h.predict z u _
        · rfl
    rw [hy', y.hstamp]
    cases hx : x.state.stamp with
    | some t =>
      have hx' : (c.est x).state.stamp = some (t + c.shift) := by simp [Change.est, Change.st, hx]
      simp only [hx, hx']
      exact key x t hx
    | none =>
      have hx' : (c.est x).state.stamp = none := by simp [Change.est, Change.st, hx]
      simp only [hx']
      have := key { x with state := { x.state with stamp := some y.stamp } } y.stamp rfl
      rw [← this]
      rfl
  unfold EkfEnv.correct EkfEnv.correctD
  rw [hadv, h.reject]
  cases ha : e.advance x y.meas (some u) with
  | error er => rfl
  | ok xp => exact h.fuse xp y.meas y'.meas _ hm hy'

theorem SameSystem.sim (h : SameSystem c e e') :
    FilterSim (ekfApi e) (ekfApi e') c.shift (fun x x' => x' = c.est x) (fun u u' => u' = c.logged u) (SameMeas c) where
  xstamp x x' hx := by subst hx; rfl
  istamp u u' hu := by subst hu; rfl
  ystamp y y' hy := hy.1
  predict x x' u u' dt hx hu := by
    subst hx hu
    have e1 := h.predict x ⟨u.value, some u.stamp⟩ dt
    show ExRel _ (e.predict x (some ⟨u.value, some u.stamp⟩) (some dt) none)
      (e'.predict (c.est x) (some (c.input ⟨u.value, some u.stamp⟩)) (some dt) none)
    rw [e1]
    cases e.predict x (some ⟨u.value, some u.stamp⟩) (some dt) none <;> exact rfl
  correct x x' u u' y y' hx hu hy := by
    subst hx hu
    have e1 := h.correct x y y' ⟨u.value, some u.stamp⟩ hy
    show ExRel _ (e.correct x y.meas (some ⟨u.value, some u.stamp⟩) none none)
      (e'.correct (c.est x) y'.meas (some (c.input ⟨u.value, some u.stamp⟩)) none none)
    rw [e1]
    cases e.correct x y.meas (some ⟨u.value, some u.stamp⟩) none none <;> exact rfl

theorem exRel_map {α β : Type} {f : α → β} {a : Except Err (List α)} {b : Except Err (List β)}
    (h : ExRel (List.Forall₂ fun x y => y = f x) a b) : b = a.map (List.map f) := by
  cases a with
  | error e => cases b with
    | error e' => exact congrArg _ (Eq.symm h)
    | ok _ => exact h.elim
  | ok l => cases b with
    | error e' => exact h.elim
    | ok l' =>
      have : List.Forall₂ (fun x y => y = f x) l l' := h
      show Except.ok l' = Except.ok (l.map f)
      congr 1
      induction this with
      | nil => rfl
      | cons h1 _ ih => simp [h1, ih (by assumption)]

/-- C91: if a change of description turns the models of one filter into those of another, running the second filter on the
described data gives exactly the description of what the first filter gives: the same exception, or the same estimates one by
one. -/
theorem C91_run_filter (h : SameSystem c e e') (x0 : SWC V n) (ins : List (StInp U)) (meas : List (StMeas V n))
    (meas' : List (StMeas V' n')) (hm : List.Forall₂ (SameMeas c) meas meas') :
    runFilter (ekfApi e') (c.est x0) (ins.map c.logged) meas'
      = (runFilter (ekfApi e) x0 ins meas).map (List.map c.est) := by
  refine exRel_map (h.sim.runFilter rfl ?_ hm)
  rw [List.forall₂_map_right_iff]
  exact List.forall₂_same.mpr fun u _ => rfl

end Verif
