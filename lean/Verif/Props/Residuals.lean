import Verif.Model.Residuals
import Verif.Lemmas.Sigma
import Verif.Lemmas.Composite
import Verif.Lemmas.Iekf

/-!
Property theorems about the standard residuals (`navlie/batch/residuals.py`; C43).
-/

namespace Verif

set_option linter.unusedVariables false
set_option linter.unusedSectionVars false

open Matrix

variable {V U : Type} {n : ℕ}

/-- `sqrt_information` of a symmetric matrix is a square root of its inverse; it exists exactly when the matrix is
positive definite. -/
theorem sqrtInformation_ok {m : ℕ} {R L : Mat m m} (hs : Rᵀ = R) (h : sqrtInformation R = .ok L) :
    R.PosDef ∧ L * Lᵀ = R⁻¹ := by
  unfold sqrtInformation at h
  obtain ⟨Q, h1, h⟩ := bind_ok h
  obtain ⟨hd, rfl⟩ := npInv_ok h1
  obtain ⟨hpd, hL⟩ := chol_ok_iff h
  have hsi : (R⁻¹)ᵀ = R⁻¹ := by rw [Matrix.transpose_nonsing_inv, hs]
  have hlow : lowerSym R⁻¹ = R⁻¹ := lowerSym_eq hsi
  rw [hlow] at hpd hL
  refine ⟨?_, hL⟩
  have := hpd.inv
  rwa [Matrix.nonsing_inv_nonsing_inv _ (isUnit_iff_ne_zero.2 hd)] at this

theorem sqrtInformation_pd {m : ℕ} {R : Mat m m} (h : R.PosDef) :
    ∃ L, sqrtInformation R = .ok L ∧ L * Lᵀ = R⁻¹ := by
  obtain ⟨L, hL, hLL⟩ := chol_ok h.inv
  refine ⟨L, ?_, hLL⟩
  unfold sqrtInformation npInv
  rw [if_neg (pd_det h)]
  exact hL

/-- Squared norm of a whitened error. -/
theorem whitened_sq {m : ℕ} {R L : Mat m m} (hL : L * Lᵀ = R⁻¹) (r : Vec m) :
    (Lᵀ *ᵥ r) ⬝ᵥ (Lᵀ *ᵥ r) = r ⬝ᵥ R⁻¹ *ᵥ r := by
  rw [← hL, ← Matrix.mulVec_mulVec, Matrix.dotProduct_mulVec r L, Matrix.mulVec_transpose]

theorem pyGet_some {α : Type} {l : List α} {k : ℕ} {a : α} (h : pyGet l k = .ok a) : l[k]? = some a := by
  unfold pyGet at h
  cases hl : l[k]? with
  | none => rw [hl] at h; cases h
  | some b => rw [hl] at h; cases h; rfl

/-- **C43, prior.** The squared error of a prior residual is the Mahalanobis distance of `x ⊖ x0` for the prior
covariance, and its Jacobian `J` (computed exactly when asked for) has `Jᵀ J = Dᵀ Σ⁻¹ D` with `D` the Jacobian of
`⊖`. The constructor raises unless the covariance is positive definite. -/
theorem C43_prior (o : StateOps V n) (x0 : V) (cov : Mat n n) (hs : covᵀ = cov) (r : PriorRes V n)
    (hr : PriorRes.new x0 cov = .ok r) (x : St V) (rest : List (St V)) (cj : Option (List Bool)) (out : ResOut n n)
    (h : r.evaluate o (x :: rest) cj = .ok out) :
    cov.PosDef ∧
    out.error ⬝ᵥ out.error = (o.minus x.value x0) ⬝ᵥ cov⁻¹ *ᵥ (o.minus x.value x0) ∧
    (truthy cj = false → out.jacobians = none) ∧
    (∀ f fs, cj = some (f :: fs) → ∃ J, out.jacobians = some [J] ∧ (f = false → J = none) ∧
      (f = true → ∃ J', J = some J' ∧ J'ᵀ * J' = (o.minusJac x.value x0)ᵀ * cov⁻¹ * o.minusJac x.value x0)) := by
  unfold PriorRes.new at hr
  obtain ⟨L, h1, hr⟩ := bind_ok hr
  cases hr
  obtain ⟨hpd, hL⟩ := sqrtInformation_ok hs h1
  unfold PriorRes.evaluate at h
  obtain ⟨y, h2, h⟩ := bind_ok h
  have hy := pyGet_some h2
  simp only [List.getElem?_cons_zero, Option.some.injEq] at hy
  subst hy
  refine ⟨hpd, ?_, ?_, ?_⟩
  · split at h
    · obtain ⟨f, h3, h⟩ := bind_ok h
      cases h
      exact whitened_sq hL _
    · cases h
      exact whitened_sq hL _
  · intro ht
    rw [ht] at h
    cases h
    rfl
  · rintro f fs rfl
    simp only [truthy, List.isEmpty_cons, Bool.not_false, if_true] at h
    obtain ⟨f', h3, h⟩ := bind_ok h
    have := pyGet_some h3
    simp only [Option.getD_some, List.getElem?_cons_zero, Option.some.injEq] at this
    subst this
    cases h
    refine ⟨_, rfl, ?_, ?_⟩
    · rintro rfl; rfl
    · rintro rfl
      refine ⟨_, rfl, ?_⟩
      rw [Matrix.transpose_mul, Matrix.transpose_transpose, ← hL]
      simp only [Matrix.mul_assoc]

/-- **C43, process.** The squared error of a process residual is the Mahalanobis distance between `x_k` and the state
predicted from `x_{k-1}` over exactly the difference of the two stamps, for the process model's covariance; missing
stamps raise. -/
theorem C43_process (o : StateOps V n) (f : ProcModel V U n) (u : Inp U) (a b : St V) (rest : List (St V))
    (cj : Option (List Bool)) (out : ResOut n n) (h : processResidual o f u (a :: b :: rest) cj = .ok out) :
    ∃ ta tb, a.stamp = some ta ∧ b.stamp = some tb ∧
      ((f.covariance a u (tb - ta))ᵀ = f.covariance a u (tb - ta) →
        out.error ⬝ᵥ out.error = (o.minus b.value (f.evaluate a u (tb - ta)).value) ⬝ᵥ
          (f.covariance a u (tb - ta))⁻¹ *ᵥ (o.minus b.value (f.evaluate a u (tb - ta)).value) ∧
        (∀ f0 f1 fs, cj = some (f0 :: f1 :: fs) → ∃ J0 J1 js, out.jacobians = some (J0 :: J1 :: js) ∧
          js = List.replicate rest.length none ∧
          (f0 = false → J0 = none) ∧ (f1 = false → J1 = none) ∧
          (f0 = true → ∃ J, J0 = some J ∧ Jᵀ * J =
            (f.jacobian a u (tb - ta))ᵀ * (f.covariance a u (tb - ta))⁻¹ * f.jacobian a u (tb - ta)) ∧
          (f1 = true → ∃ J, J1 = some J ∧ Jᵀ * J =
            (o.minusJac b.value (f.evaluate a u (tb - ta)).value)ᵀ * (f.covariance a u (tb - ta))⁻¹ *
              o.minusJac b.value (f.evaluate a u (tb - ta)).value))) := by
  unfold processResidual at h
  obtain ⟨a', h1, h⟩ := bind_ok h
  obtain ⟨b', h2, h⟩ := bind_ok h
  have ha := pyGet_some h1
  have hb := pyGet_some h2
  simp only [List.getElem?_cons_zero, List.getElem?_cons_succ, Option.some.injEq] at ha hb
  subst ha hb
  obtain ⟨dt, h3, h⟩ := bind_ok h
  obtain ⟨L, h4, h⟩ := bind_ok h
  unfold stampDiff at h3
  cases hta : a.stamp with
  | none => rw [hta] at h3; cases hb : b.stamp <;> rw [hb] at h3 <;> cases h3
  | some ta =>
    cases htb : b.stamp with
    | none => rw [hta, htb] at h3; cases h3
    | some tb =>
      rw [hta, htb] at h3
      have hdt : dt = tb - ta := (Except.ok.inj h3).symm
      subst hdt
      refine ⟨ta, tb, rfl, rfl, fun hs => ?_⟩
      obtain ⟨hpd, hL⟩ := sqrtInformation_ok hs h4
      refine ⟨?_, ?_⟩
      · split at h
        · obtain ⟨f0, h5, h⟩ := bind_ok h
          obtain ⟨f1, h6, h⟩ := bind_ok h
          cases h
          exact whitened_sq hL _
        · cases h
          exact whitened_sq hL _
      · rintro f0 f1 fs rfl
        simp only [truthy, List.isEmpty_cons, Bool.not_false, if_true] at h
        obtain ⟨f0', h5, h⟩ := bind_ok h
        obtain ⟨f1', h6, h⟩ := bind_ok h
        have g0 := pyGet_some h5
        have g1 := pyGet_some h6
        simp only [Option.getD_some, List.getElem?_cons_zero, List.getElem?_cons_succ, Option.some.injEq] at g0 g1
        subst g0 g1
        cases h
        refine ⟨_, _, _, rfl, by simp, ?_, ?_, ?_, ?_⟩
        · rintro rfl; rfl
        · rintro rfl; rfl
        · rintro rfl
          refine ⟨_, rfl, ?_⟩
          rw [← hL, Matrix.neg_mul, Matrix.transpose_neg, Matrix.mul_neg, Matrix.neg_mul, neg_neg, Matrix.transpose_mul,
            Matrix.transpose_transpose]
          simp only [Matrix.mul_assoc]
        · rintro rfl
          refine ⟨_, rfl, ?_⟩
          rw [← hL, Matrix.transpose_mul, Matrix.transpose_transpose]
          simp only [Matrix.mul_assoc]

/-- **C43, measurement.** The squared error of a measurement residual is the Mahalanobis distance between the
measurement and its prediction, for the measurement model's covariance; a model that returns `None` raises. -/
theorem C43_measurement (y : Meas V n) (x : St V) (rest : List (St V)) (cj : Option (List Bool))
    (out : ResOut y.m n) (h : measurementResidual y (x :: rest) cj = .ok out) :
    ∃ yc, y.model.evaluate x = some yc ∧
      ((y.model.covariance x)ᵀ = y.model.covariance x →
        out.error ⬝ᵥ out.error = (y.value - yc) ⬝ᵥ (y.model.covariance x)⁻¹ *ᵥ (y.value - yc) ∧
        (∀ f fs, cj = some (f :: fs) → ∃ J js, out.jacobians = some (J :: js) ∧
          js = List.replicate rest.length none ∧ (f = false → J = none) ∧
          (f = true → ∃ J', J = some J' ∧ J'ᵀ * J' =
            (y.model.jacobian x)ᵀ * (y.model.covariance x)⁻¹ * y.model.jacobian x))) := by
  unfold measurementResidual at h
  obtain ⟨x', h1, h⟩ := bind_ok h
  have hx := pyGet_some h1
  simp only [List.getElem?_cons_zero, Option.some.injEq] at hx
  subst hx
  split at h
  · cases h
  · rename_i yc hyc
    obtain ⟨L, h2, h⟩ := bind_ok h
    refine ⟨yc, hyc, fun hs => ?_⟩
    obtain ⟨hpd, hL⟩ := sqrtInformation_ok hs h2
    refine ⟨?_, ?_⟩
    · split at h
      · obtain ⟨f0, h5, h⟩ := bind_ok h
        cases h
        exact whitened_sq hL _
      · cases h
        exact whitened_sq hL _
    · rintro f fs rfl
      simp only [truthy, List.isEmpty_cons, Bool.not_false, if_true] at h
      obtain ⟨f0', h5, h⟩ := bind_ok h
      have g0 := pyGet_some h5
      simp only [Option.getD_some, List.getElem?_cons_zero, Option.some.injEq] at g0
      subst g0
      cases h
      refine ⟨_, _, rfl, by simp, ?_, ?_⟩
      · rintro rfl; rfl
      · rintro rfl
        refine ⟨_, rfl, ?_⟩
        rw [← hL, Matrix.neg_mul, Matrix.transpose_neg, Matrix.mul_neg, Matrix.neg_mul, neg_neg, Matrix.transpose_mul,
          Matrix.transpose_transpose]
        simp only [Matrix.mul_assoc]

theorem C43_measurement_none (y : Meas V n) (x : St V) (rest : List (St V)) (cj : Option (List Bool))
    (h : y.model.evaluate x = none) : measurementResidual y (x :: rest) cj = .error .attributeError := by
  unfold measurementResidual pyGet
  simp only [List.getElem?_cons_zero, bind, Except.bind]
  rw [h]

/-- Vector states. -/
def vecStateOps (n : ℕ) : StateOps (Vec n) n := ⟨fun x d => x + d, fun x y => x - y, fun _ _ => 1⟩

/-- **C43.** For vector states and linear models the Jacobians are exact: moving the variables by `δ` changes the
whitened error by exactly `J δ`. Prior. -/
theorem C43_prior_exact (r : PriorRes (Vec n) n) (x : St (Vec n)) (δ : Vec n) (out out' : ResOut n n) (J : Mat n n)
    (h : r.evaluate (vecStateOps n) [x] (some [true]) = .ok out)
    (h' : r.evaluate (vecStateOps n) [{ x with value := x.value + δ }] none = .ok out')
    (hJ : out.jacobians = some [some J]) : out'.error = out.error + J *ᵥ δ := by
  simp only [PriorRes.evaluate, pyGet, List.getElem?_cons_zero, bind, Except.bind, truthy, List.isEmpty_cons,
    Bool.not_false, if_true, Option.getD_some, vecStateOps, Bool.false_eq_true, if_false] at h h'
  cases h
  cases h'
  simp only [whenAsked, if_true, Option.some.injEq, List.cons.injEq, and_true] at hJ
  subst hJ
  show r.Lᵀ *ᵥ (x.value + δ - r.x0) = r.Lᵀ *ᵥ (x.value - r.x0) + (r.Lᵀ * (1 : Mat n n)) *ᵥ δ
  rw [Matrix.mul_one, ← Matrix.mulVec_add]
  congr 1
  abel

/-- **C43.** Measurement. -/
theorem C43_measurement_exact {m : ℕ} (C : Mat m n) (R : Mat m m) (yv : Vec m) (t : Option ℝ) (x : St (Vec n))
    (δ : Vec n) (out out' : ResOut m n) (J : Mat m n)
    (h : measurementResidual (linMeas C R yv t) [x] (some [true]) = .ok out)
    (h' : measurementResidual (linMeas C R yv t) [{ x with value := x.value + δ }] none = .ok out')
    (hJ : out.jacobians = some [some J]) : out'.error = out.error + J *ᵥ δ := by
  simp only [measurementResidual, pyGet, List.getElem?_cons_zero, bind, Except.bind, truthy, List.isEmpty_cons,
    Bool.not_false, if_true, Option.getD_some, Bool.false_eq_true, if_false, linMeas, linMeasModel] at h h'
  cases hL : sqrtInformation R with
  | error e => rw [hL] at h; cases h
  | ok L =>
    rw [hL] at h h'
    cases h
    cases h'
    simp only [whenAsked, if_true, Option.some.injEq, List.cons.injEq, List.length_singleton, Nat.sub_self,
      List.replicate_zero, and_true] at hJ
    subst hJ
    show (Lᵀ *ᵥ fun i => yv i - (C *ᵥ (x.value + δ)) i) =
      (Lᵀ *ᵥ fun i => yv i - (C *ᵥ x.value) i) + (-(Lᵀ : Mat m m) * (C : Mat m n)) *ᵥ δ
    rw [Matrix.neg_mul, Matrix.neg_mulVec, ← Matrix.mulVec_mulVec, ← sub_eq_add_neg, ← Matrix.mulVec_sub]
    congr 1
    funext i
    simp only [Pi.sub_apply, Matrix.mulVec_add, Pi.add_apply]
    ring

/-- **C43.** Process: moving `x_{k-1}` by `δ0` and `x_k` by `δ1`. -/
theorem C43_process_exact (A : Inp U → ℝ → Mat n n) (b : Inp U → ℝ → Vec n) (Q : Inp U → ℝ → Mat n n) (u : Inp U)
    (x0 x1 : St (Vec n)) (δ0 δ1 : Vec n) (out out' : ResOut n n) (J0 J1 : Mat n n)
    (h : processResidual (vecStateOps n) (linProcModel A b Q) u [x0, x1] (some [true, true]) = .ok out)
    (h' : processResidual (vecStateOps n) (linProcModel A b Q) u
      [{ x0 with value := x0.value + δ0 }, { x1 with value := x1.value + δ1 }] none = .ok out')
    (hJ : out.jacobians = some [some J0, some J1]) : out'.error = out.error + J0 *ᵥ δ0 + J1 *ᵥ δ1 := by
  simp only [processResidual, pyGet, List.getElem?_cons_zero, List.getElem?_cons_succ, bind, Except.bind, truthy,
    List.isEmpty_cons, Bool.not_false, if_true, Option.getD_some, Bool.false_eq_true, if_false, linProcModel,
    vecStateOps] at h h'
  cases hd : stampDiff x1.stamp x0.stamp with
  | error e => rw [hd] at h; cases h
  | ok dt =>
    rw [hd] at h h'
    simp only [] at h h'
    cases hL : sqrtInformation (Q u dt) with
    | error e => rw [hL] at h; cases h
    | ok L =>
      rw [hL] at h h'
      cases h
      cases h'
      simp only [whenAsked, if_true, Option.some.injEq, List.cons.injEq, List.length_cons, List.length_nil,
        Nat.sub_self, List.replicate_zero, and_true, Nat.zero_add, Nat.reduceAdd] at hJ
      obtain ⟨rfl, rfl⟩ := hJ
      show Lᵀ *ᵥ _ = Lᵀ *ᵥ _ + _ + _
      rw [Matrix.mul_one, Matrix.neg_mul, Matrix.neg_mulVec, ← Matrix.mulVec_mulVec, ← sub_eq_add_neg,
        ← Matrix.mulVec_sub, ← Matrix.mulVec_add]
      congr 1
      rw [Matrix.mulVec_add]
      abel

theorem four_pd : (!![4] : Mat 1 1).PosDef := by
  refine pd_of_dot (by ext i j; fin_cases i; fin_cases j; rfl) ?_
  intro v hv
  have h0 : v 0 ≠ 0 := fun h => hv (funext fun i => by rw [Subsingleton.elim i 0]; exact h)
  have : v ⬝ᵥ (!![4] : Mat 1 1) *ᵥ v = 4 * (v 0 * v 0) := by
    simp [dotProduct, Matrix.mulVec]; ring
  rw [this]
  have := mul_self_pos.2 h0
  linarith

/-- The hypotheses are met: a 1×1 prior with variance 4. -/
example : ∃ r : PriorRes (Vec 1) 1, PriorRes.new (fun _ => 1) (!![4] : Mat 1 1) = .ok r ∧
    ∃ out, r.evaluate (vecStateOps 1) [⟨fun _ => 3, none⟩] (some [true]) = .ok out := by
  obtain ⟨L, hL, -⟩ := sqrtInformation_pd four_pd
  refine ⟨⟨fun _ => 1, L⟩, ?_, ?_⟩
  · unfold PriorRes.new; rw [hL]; rfl
  · exact ⟨_, rfl⟩

/-- A measurement with variance 4 and a process step with variance 4 are accepted. -/
example : (∃ out, measurementResidual (linMeas (!![2] : Mat 1 1) (!![4] : Mat 1 1) (fun _ => 1) none)
      [⟨fun _ => 3, none⟩] (some [true]) = .ok out) ∧
    ∃ out, processResidual (U := Unit) (vecStateOps 1) (linProcModel (fun _ _ => 1) (fun _ _ => 0) (fun _ _ => !![4]))
      ⟨(), some 0⟩ [⟨fun _ => 3, some 0⟩, ⟨fun _ => 5, some 1⟩] (some [true, false]) = .ok out := by
  obtain ⟨L, hL, -⟩ := sqrtInformation_pd four_pd
  constructor
  · simp only [measurementResidual, pyGet, List.getElem?_cons_zero, bind, Except.bind, linMeas, linMeasModel]
    rw [hL]
    exact ⟨_, rfl⟩
  · simp only [processResidual, pyGet, List.getElem?_cons_zero, List.getElem?_cons_succ, bind, Except.bind,
      linProcModel, stampDiff]
    rw [hL]
    exact ⟨_, rfl⟩

end Verif
