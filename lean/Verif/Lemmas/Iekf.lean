import Verif.Model.Iekf
import Verif.Lemmas.Ekf
import Verif.Lemmas.Info
import Mathlib.Data.Real.StarOrdered
import Mathlib.Analysis.SpecificLimits.Basic

/-! Helper lemmas about the iterated EKF model. -/

set_option linter.unusedVariables false

namespace Verif

open Matrix

variable {V U : Type} {n : ℕ}

theorem npInv_ok {m : ℕ} {A B : Mat m m} (h : npInv A = .ok B) : A.det ≠ 0 ∧ B = A⁻¹ := by
  unfold npInv at h
  split at h
  · cases h
  · rename_i hd; exact ⟨hd, (Except.ok.inj h).symm⟩

theorem npInv_of_det {m : ℕ} {A : Mat m m} (h : A.det ≠ 0) : npInv A = .ok A⁻¹ := by
  unfold npInv; rw [if_neg h]

theorem npInv_ne_diverges {m : ℕ} (A : Mat m m) : npInv A ≠ .error .diverges := by
  unfold npInv; split <;> simp

theorem solve_ne_diverges {m : ℕ} {k : Type} (A : Mat m m) (B : Matrix (Fin m) k ℝ) :
    solve A B ≠ .error .diverges := by
  unfold solve; split <;> simp

theorem bind_ok {α β : Type} {a : Except Err α} {g : α → Except Err β} {b : β}
    (h : (a >>= g) = .ok b) : ∃ v, a = .ok v ∧ g v = .ok b := by
  cases a with
  | error e => cases h
  | ok v => exact ⟨v, rfl, h⟩

theorem bind_ne {α β : Type} {e : Err} {a : Except Err α} {g : α → Except Err β}
    (h1 : a ≠ .error e) (h2 : ∀ v, a = .ok v → g v ≠ .error e) : (a >>= g) ≠ .error e := by
  cases a with
  | error e' => intro h; apply h1; simpa [bind, Except.bind] using h
  | ok v => exact h2 v rfl

theorem bind_ne_diverges {α β : Type} {a : Except Err α} {g : α → Except Err β}
    (h1 : a ≠ .error .diverges) (h2 : ∀ v, a = .ok v → g v ≠ .error .diverges) :
    (a >>= g) ≠ .error .diverges := by
  cases a with
  | error e => intro h; apply h1; simpa [bind, Except.bind] using h
  | ok v => exact h2 v rfl

theorem measMinus_ok {m : ℕ} {v : Vec m} {o : Option (Vec m)} {z : Vec m}
    (h : measMinus v o = .ok z) : ∃ yc, o = some yc ∧ z = fun i => v i - yc i := by
  rcases o with _ | yc
  · cases h
  · exact ⟨yc, rfl, (Except.ok.inj h).symm⟩

theorem measMinus_ne_diverges {m : ℕ} (v : Vec m) (o : Option (Vec m)) :
    measMinus v o ≠ .error .diverges := by
  rcases o with _ | yc <;> simp [measMinus]

theorem checkOutlier_ne_diverges (chi : ℕ → ℝ) {m : ℕ} (z : Vec m) (S : Mat m m) :
    checkOutlier chi z S ≠ .error .diverges := by
  unfold checkOutlier
  exact bind_ne_diverges (solve_ne_diverges _ _) (by intros; simp [pure, Except.pure])

theorem lineSearch_some (f : IekfEnv V U n) (x : SWC V n) (y : Meas V n)
    (xop : St V) (dx : Vec n) (Pinv : Mat n n) (Rinv : Mat y.m y.m) (costOld : ℝ)
    (fuel : ℕ) (alpha : ℝ) (xnew : St V)
    (h : f.lineSearchLoop x y xop dx Pinv Rinv costOld fuel alpha = .ok (some xnew)) :
    ∃ (a : ℝ) (yc : Vec y.m), xnew = f.plusSt xop (a • dx) ∧ f.stepTol < a ∧
      y.model.evaluate xnew = some yc ∧
      gnCost Pinv Rinv (f.minus xnew.value x.state.value) (fun i => y.value i - yc i) < costOld := by
  induction fuel generalizing alpha with
  | zero => cases h
  | succ fuel ih =>
    unfold IekfEnv.lineSearchLoop at h
    split at h
    · rename_i ha
      obtain ⟨z, hz, h⟩ := bind_ok h
      obtain ⟨yc, hyc, rfl⟩ := measMinus_ok hz
      simp only at h
      split at h
      · rename_i hc
        have hx := Option.some.inj (Except.ok.inj h)
        refine ⟨alpha, yc, hx.symm, ha, ?_, ?_⟩
        · rw [← hx]; exact hyc
        · rw [← hx]; exact hc
      · exact ih _ h
    · cases h

theorem lineSearch_terminates (f : IekfEnv V U n) (x : SWC V n) (y : Meas V n)
    (xop : St V) (dx : Vec n) (Pinv : Mat n n) (Rinv : Mat y.m y.m) (costOld : ℝ)
    (fuel : ℕ) (alpha : ℝ) (h : alpha * (9 / 10) ^ fuel ≤ f.stepTol) (h0 : 0 ≤ alpha) :
    f.lineSearchLoop x y xop dx Pinv Rinv costOld (fuel + 1) alpha ≠ .error .diverges := by
  induction fuel generalizing alpha with
  | zero =>
    unfold IekfEnv.lineSearchLoop
    rw [if_neg (by simpa using h)]
    simp
  | succ fuel ih =>
    unfold IekfEnv.lineSearchLoop
    split
    · refine bind_ne_diverges (measMinus_ne_diverges _ _) ?_
      intro v _
      simp only
      split
      · simp
      · exact ih _ (by rw [pow_succ] at h; linarith) (by linarith)
    · simp

/-- Enough fuel exists whenever the step tolerance is positive. -/
theorem exists_fuel {tol : ℝ} (h : 0 < tol) : ∃ N : ℕ, ∀ k ≥ N, (1 : ℝ) * (9 / 10) ^ k ≤ tol := by
  obtain ⟨N, hN⟩ := exists_pow_lt_of_lt_one h (by norm_num : (9 / 10 : ℝ) < 1)
  refine ⟨N, fun k hk => ?_⟩
  rw [one_mul]
  exact le_trans (pow_le_pow_of_le_one (by norm_num) (by norm_num) hk) hN.le

theorem gnPass_ne_diverges (f : IekfEnv V U n) (lsFuel : ℕ) (x : SWC V n) (y : Meas V n)
    (reject : Bool) (xop : St V) (h : (1 : ℝ) * (9 / 10) ^ lsFuel ≤ f.stepTol) :
    f.gnPass (lsFuel + 1) x y reject xop ≠ .error .diverges := by
  unfold IekfEnv.gnPass
  refine bind_ne_diverges (measMinus_ne_diverges _ _) fun z _ => ?_
  refine bind_ne_diverges (npInv_ne_diverges _) fun Pinv _ => ?_
  refine bind_ne_diverges (npInv_ne_diverges _) fun Rinv _ => ?_
  refine bind_ne_diverges (by unfold maybeOutlier; split; exacts [checkOutlier_ne_diverges _ _ _, by simp]) fun o _ => ?_
  cases o
  · simp only [Bool.false_eq_true, if_false]
    refine bind_ne_diverges (solve_ne_diverges _ _) fun Kt _ => ?_
    split
    · simp [pure, Except.pure]
    · split
      · refine bind_ne_diverges (lineSearch_terminates f x y xop _ _ _ _ lsFuel 1 h zero_le_one) ?_
        intro v _
        rcases v with _ | v <;> simp [pure, Except.pure]
      · simp [pure, Except.pure]
  · simp [pure, Except.pure]

theorem gnLoop_ne_diverges (f : IekfEnv V U n) (lsFuel : ℕ) (x : SWC V n) (y : Meas V n)
    (reject : Bool) (h : (1 : ℝ) * (9 / 10) ^ lsFuel ≤ f.stepTol) (k : ℕ) (xop : St V)
    (tr : List (St V)) : f.gnLoop (lsFuel + 1) x y reject k xop tr ≠ .error .diverges := by
  induction k generalizing xop tr with
  | zero => simp [IekfEnv.gnLoop]
  | succ k ih =>
    unfold IekfEnv.gnLoop
    refine bind_ne_diverges (gnPass_ne_diverges f lsFuel x y reject xop h) fun o _ => ?_
    cases o with
    | outlier => simp
    | stop => simp
    | step xnew => exact ih _ _

/-- The Gauss-Newton direction at operating point `xop`. -/
noncomputable def gnDir (f : IekfEnv V U n) (x : SWC V n) (y : Meas V n) (xop : St V)
    (yc : Vec y.m) : Vec n :=
  let e := f.minus xop.value x.state.value
  let J := f.plusJac xop.value e
  let G := y.model.jacobian xop
  let P := J * x.cov * Jᵀ
  let S := symmetrize (G * P * Gᵀ + y.model.covariance xop)
  (-(J *ᵥ e)) + (P * Gᵀ * S⁻¹) *ᵥ ((fun i => y.value i - yc i) + G *ᵥ (J *ᵥ e))

/-- What a pass that takes a step did. -/
theorem gnPass_step (f : IekfEnv V U n) (lsFuel : ℕ) (x : SWC V n) (y : Meas V n)
    (reject : Bool) (xop xnew : St V) (h : f.gnPass lsFuel x y reject xop = .ok (.step xnew)) :
    ∃ yc, y.model.evaluate xop = some yc ∧
      (f.lineSearch = false → xnew = f.plusSt xop (gnDir f x y xop yc)) ∧
      (f.lineSearch = true → ∃ (a : ℝ) (yn : Vec y.m), f.stepTol < a ∧
        xnew = f.plusSt xop (a • gnDir f x y xop yc) ∧ y.model.evaluate xnew = some yn ∧
        gnCost x.cov⁻¹ (y.model.covariance xop)⁻¹ (f.minus xnew.value x.state.value)
            (fun i => y.value i - yn i)
          < gnCost x.cov⁻¹ (y.model.covariance xop)⁻¹ (f.minus xop.value x.state.value)
            (fun i => y.value i - yc i)) := by
  unfold IekfEnv.gnPass at h
  obtain ⟨z, hz, h⟩ := bind_ok h
  obtain ⟨Pinv, hPinv, h⟩ := bind_ok h
  obtain ⟨Rinv, hRinv, h⟩ := bind_ok h
  obtain ⟨o, ho, h⟩ := bind_ok h
  obtain ⟨yc, hyc, rfl⟩ := measMinus_ok hz
  obtain ⟨_, rfl⟩ := npInv_ok hPinv
  obtain ⟨_, rfl⟩ := npInv_ok hRinv
  refine ⟨yc, hyc, ?_⟩
  cases o
  · simp only [Bool.false_eq_true, if_false] at h
    obtain ⟨Kt, hKt, h⟩ := bind_ok h
    have hK := (gain_eq hKt).2
    rw [hK] at h
    split at h
    · cases h
    · split at h
      · rename_i hls
        obtain ⟨v, hv, h⟩ := bind_ok h
        rcases v with _ | v
        · cases h
        · simp [pure, Except.pure] at h
          subst h
          refine ⟨by simp [hls], fun _ => ?_⟩
          obtain ⟨a, yn, h1, h2, h3, h4⟩ := lineSearch_some f x y xop _ _ _ _ _ _ _ hv
          exact ⟨a, yn, h2, h1, h3, h4⟩
      · rename_i hls
        refine ⟨fun _ => ?_, by simp [hls]⟩
        have h := Except.ok.inj h
        injection h with h
        rw [← h]; rfl
  · simp [pure, Except.pure] at h

/-- Innovation covariance used by a pass. -/
noncomputable def gnS (f : IekfEnv V U n) (x : SWC V n) (y : Meas V n) (xop : St V) : Mat y.m y.m :=
  let e := f.minus xop.value x.state.value
  let J := f.plusJac xop.value e
  let G := y.model.jacobian xop
  symmetrize (G * (J * x.cov * Jᵀ) * Gᵀ + y.model.covariance xop)

/-- A pass without outlier test, in closed form. -/
theorem gnPass_noreject (f : IekfEnv V U n) (lsFuel : ℕ) (x : SWC V n) (y : Meas V n)
    (xop : St V) (yc : Vec y.m) (hyc : y.model.evaluate xop = some yc)
    (hP : x.cov.det ≠ 0) (hR : (y.model.covariance xop).det ≠ 0) (hS : (gnS f x y xop).det ≠ 0) :
    f.gnPass lsFuel x y false xop =
      if npNorm (gnDir f x y xop yc) < f.stepTol then .ok .stop
      else if f.lineSearch then
        match f.lineSearchLoop x y xop (gnDir f x y xop yc) x.cov⁻¹ (y.model.covariance xop)⁻¹
          (gnCost x.cov⁻¹ (y.model.covariance xop)⁻¹ (f.minus xop.value x.state.value)
            (fun i => y.value i - yc i)) lsFuel 1 with
        | .error e => .error e
        | .ok (some xnew) => .ok (.step xnew)
        | .ok none => .ok .stop
      else .ok (.step (f.plusSt xop (gnDir f x y xop yc))) := by
  have hK := solve_ok (A := (gnS f x y xop)ᵀ) (by rw [det_transpose]; exact hS)
    (f.plusJac xop.value (f.minus xop.value x.state.value) * x.cov
      * (f.plusJac xop.value (f.minus xop.value x.state.value))ᵀ * (y.model.jacobian xop)ᵀ)ᵀ
  have hKT := (gain_eq hK).2
  unfold gnS at hK hKT
  simp only at hK hKT
  unfold IekfEnv.gnPass
  rw [hyc, npInv_of_det hP]
  simp only []
  rw [npInv_of_det hR]
  simp only [measMinus, bind, Except.bind, maybeOutlier, Bool.false_eq_true, if_false]
  rw [hK]
  simp only
  rw [hKT]
  unfold gnDir
  simp only
  split
  · rfl
  · split
    · generalize f.lineSearchLoop x y xop _ _ _ _ lsFuel 1 = r
      rcases r with e | _ | s <;> rfl
    · rfl

theorem advanceI_none (f : IekfEnv V U n) (x : SWC V n) (y : Meas V n) (tx : ℝ)
    (hx : x.state.stamp = some tx) (xp : SWC V n) (h : f.advanceI x y none = .ok xp) : xp = x := by
  unfold IekfEnv.advanceI at h
  simp only [hx] at h
  split at h
  · cases h; rfl
  · split at h
    · cases h
    · cases h; rfl

end Verif
