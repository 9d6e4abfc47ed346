import Verif.Model.Ekf
import Verif.Lemmas.LinAlg
import Mathlib.Tactic.Linarith

/-! Helper lemmas about the EKF model (not property statements). -/

set_option linter.unusedSectionVars false
set_option linter.unusedVariables false

namespace Verif

open Matrix

variable {V U : Type} {n : ℕ}

/-- Innovation covariance `S = G P Gᵀ + R` of a measurement at an estimate. -/
noncomputable def innovCov (x : SWC V n) (y : Meas V n) (xjac : Option (St V)) : Mat y.m y.m :=
  y.model.jacobian x.state * x.cov * (y.model.jacobian x.state)ᵀ
    + y.model.covariance (xjac.getD x.state)

theorem checkOutlier_ok {chi : ℕ → ℝ} {m : ℕ} {z : Vec m} {S : Mat m m} (h : S.det ≠ 0) :
    checkOutlier chi z S = .ok (decide (z ⬝ᵥ (S⁻¹ *ᵥ z) > chi m)) := by
  unfold checkOutlier
  rw [solve_ok h]
  rfl

theorem checkOutlier_err {chi : ℕ → ℝ} {m : ℕ} {z : Vec m} {S : Mat m m} (h : S.det = 0) :
    checkOutlier chi z S = .error .linAlgError := by
  unfold checkOutlier solve
  rw [if_pos h]; rfl

/-- The update when the measurement is fused. -/
noncomputable def kalmanUpdate (e : EkfEnv V U n) (x : SWC V n) (y : Meas V n)
    (xjac : Option (St V)) (yc : Vec y.m) : SWC V n :=
  let K := x.cov * (y.model.jacobian x.state)ᵀ * (innovCov x y xjac)⁻¹
  { state := e.plusSt x.state (K *ᵥ (fun i => y.value i - yc i))
    cov := symmetrize ((1 - K * y.model.jacobian x.state) * x.cov) }

theorem fuse_none (e : EkfEnv V U n) (x : SWC V n) (y : Meas V n) (xjac : Option (St V))
    (rej : Bool) (h : y.model.evaluate x.state = none) : e.fuse x y xjac rej = .ok (x, none) := by
  unfold EkfEnv.fuse
  rw [h]

theorem fuse_noreject (e : EkfEnv V U n) (x : SWC V n) (y : Meas V n) (xjac : Option (St V))
    (yc : Vec y.m) (h : y.model.evaluate x.state = some yc) (hd : (innovCov x y xjac).det ≠ 0) :
    e.fuse x y xjac false = .ok (kalmanUpdate e x y xjac yc,
      some ⟨y.m, fun i => y.value i - yc i, innovCov x y xjac, false⟩) := by
  unfold EkfEnv.fuse
  rw [h]
  simp only [bind, Except.bind, Bool.false_eq_true, if_false]
  rw [solve_ok (by rw [det_transpose]; exact hd)]
  simp only []
  unfold kalmanUpdate innovCov
  simp only [transpose_mul, transpose_transpose, transpose_nonsing_inv, Matrix.mul_assoc]

theorem fuse_reject (e : EkfEnv V U n) (x : SWC V n) (y : Meas V n) (xjac : Option (St V))
    (yc : Vec y.m) (h : y.model.evaluate x.state = some yc) (hd : (innovCov x y xjac).det ≠ 0) :
    e.fuse x y xjac true =
      if (fun i => y.value i - yc i) ⬝ᵥ ((innovCov x y xjac)⁻¹ *ᵥ (fun i => y.value i - yc i))
          > e.chi2ppf99 y.m
      then .ok (x, some ⟨y.m, fun i => y.value i - yc i, innovCov x y xjac, true⟩)
      else e.fuse x y xjac false := by
  rw [fuse_noreject e x y xjac yc h hd]
  unfold EkfEnv.fuse
  rw [h]
  simp only [bind, Except.bind, if_true]
  have := checkOutlier_ok (chi := e.chi2ppf99) (z := fun i => y.value i - yc i) hd
  unfold innovCov at this
  rw [this]
  simp only [decide_eq_true_eq]
  unfold innovCov
  by_cases hc : (fun i => y.value i - yc i) ⬝ᵥ ((y.model.jacobian x.state * x.cov * (y.model.jacobian x.state)ᵀ
    + y.model.covariance (xjac.getD x.state))⁻¹ *ᵥ (fun i => y.value i - yc i)) > e.chi2ppf99 y.m
  · rw [if_pos hc, if_pos hc]
  · rw [if_neg hc, if_neg hc]
    unfold innovCov at hd
    rw [solve_ok (by rw [det_transpose]; exact hd)]
    simp only []
    unfold kalmanUpdate innovCov
    simp only [transpose_mul, transpose_transpose, transpose_nonsing_inv, Matrix.mul_assoc]

theorem fuse_singular (e : EkfEnv V U n) (x : SWC V n) (y : Meas V n) (xjac : Option (St V))
    (rej : Bool) (yc : Vec y.m) (h : y.model.evaluate x.state = some yc)
    (hd : (innovCov x y xjac).det = 0) :
    e.fuse x y xjac rej = .error .linAlgError := by
  unfold EkfEnv.fuse
  rw [h]
  simp only [bind, Except.bind]
  unfold innovCov at hd
  cases rej
  · simp only [Bool.false_eq_true, if_false]
    unfold solve
    rw [if_pos (by rw [det_transpose]; exact hd)]
  · simp only [if_true]
    rw [checkOutlier_err hd]

/-- Complete case analysis of a successful fusion. -/
theorem fuse_cases (e : EkfEnv V U n) (x : SWC V n) (y : Meas V n) (xjac : Option (St V))
    (rej : Bool) (x' : SWC V n) (d : Option CorrectDetails)
    (h : e.fuse x y xjac rej = .ok (x', d)) :
    (x' = x) ∨ ∃ yc, y.model.evaluate x.state = some yc ∧ (innovCov x y xjac).det ≠ 0 ∧
      x' = kalmanUpdate e x y xjac yc := by
  cases hy : y.model.evaluate x.state with
  | none =>
    rw [fuse_none e x y xjac rej hy] at h
    left
    simp at h
    exact h.1.symm
  | some yc =>
    by_cases hd : (innovCov x y xjac).det = 0
    · rw [fuse_singular e x y xjac rej yc hy hd] at h
      cases h
    · cases rej
      · rw [fuse_noreject e x y xjac yc hy hd] at h
        right
        refine ⟨yc, rfl, hd, ?_⟩
        simp at h
        exact h.1.symm
      · rw [fuse_reject e x y xjac yc hy hd] at h
        split at h
        · left
          simp at h
          exact h.1.symm
        · rw [fuse_noreject e x y xjac yc hy hd] at h
          right
          refine ⟨yc, rfl, hd, ?_⟩
          simp at h
          exact h.1.symm

theorem kalmanUpdate_cov_psd (e : EkfEnv V U n) (x : SWC V n) (y : Meas V n)
    (xjac : Option (St V)) (yc : Vec y.m) (hP : x.cov.PosSemidef)
    (hR : (y.model.covariance (xjac.getD x.state)).PosSemidef)
    (hd : (innovCov x y xjac).det ≠ 0) : (kalmanUpdate e x y xjac yc).cov.PosSemidef := by
  have h := kalman_psd hP (y.model.jacobian x.state) hR hd
  unfold kalmanUpdate innovCov
  simp only
  rw [symmetrize_eq (psd_symm h)]
  exact h

theorem kalmanUpdate_cov_le (e : EkfEnv V U n) (x : SWC V n) (y : Meas V n)
    (xjac : Option (St V)) (yc : Vec y.m) (hP : x.cov.PosSemidef)
    (hR : (y.model.covariance (xjac.getD x.state)).PosSemidef)
    (hd : (innovCov x y xjac).det ≠ 0) :
    (x.cov - (kalmanUpdate e x y xjac yc).cov).PosSemidef := by
  have h := kalman_psd hP (y.model.jacobian x.state) hR hd
  unfold kalmanUpdate innovCov
  simp only
  rw [symmetrize_eq (psd_symm h)]
  exact kalman_decrease hP _ hR

theorem predictTime_ok {xstamp : Option ℝ} {u : Option (Inp U)} {dt : Option ℝ} {t d : ℝ}
    (h : predictTime xstamp u dt = .ok (t, d)) : 0 ≤ d ∧
      ((xstamp = some t) ∨ (xstamp = none ∧ ∃ u', u = some u' ∧ u'.stamp = some t)) ∧
      ((dt = some d) ∨ (dt = none ∧ ∃ u' tu, u = some u' ∧ u'.stamp = some tu ∧ d = tu - t)) := by
  unfold predictTime at h
  rcases xstamp with _ | tx <;> rcases u with _ | ⟨uv, _ | tu⟩ <;> rcases dt with _ | d' <;>
    simp only [bind, Except.bind] at h <;> (try cases h) <;>
    (split at h <;> first | (cases h; done) | skip) <;> cases h <;> simp_all

theorem predict_eq (e : EkfEnv V U n) (x : SWC V n) (u : Option (Inp U)) (dt : Option ℝ)
    (xjac : Option (St V)) (t d : ℝ) (h : predictTime x.state.stamp u dt = .ok (t, d)) :
    e.predict x u dt xjac = .ok (match (generalizing := false) u with
      | none => x
      | some u => e.propagate x u t d (xjac.getD x.state)) := by
  unfold EkfEnv.predict
  rw [h]
  rcases u with _ | u <;> rfl

theorem predict_error_iff (e : EkfEnv V U n) (x : SWC V n) (u : Option (Inp U)) (dt : Option ℝ)
    (xjac : Option (St V)) (err : Err) :
    e.predict x u dt xjac = .error err ↔ predictTime x.state.stamp u dt = .error err := by
  unfold EkfEnv.predict
  cases predictTime x.state.stamp u dt with
  | error err' => simp [bind, Except.bind]
  | ok r => rcases u with _ | u <;> simp [bind, Except.bind]

theorem predict_some_some (e : EkfEnv V U n) (x : SWC V n) (u : Inp U) (t d : ℝ)
    (xjac : Option (St V)) (hx : x.state.stamp = some t) (hd : 0 ≤ d) :
    e.predict x (some u) (some d) xjac = .ok (e.propagate x u t d (xjac.getD x.state)) := by
  rw [predict_eq e x (some u) (some d) xjac t d]
  unfold predictTime
  simp [hx, bind, Except.bind, not_lt.2 hd]

/-- Every successful prediction either returns its argument or is the Gaussian propagation. -/
theorem predict_cases (e : EkfEnv V U n) (x : SWC V n) (u : Option (Inp U)) (dt : Option ℝ)
    (xjac : Option (St V)) (x' : SWC V n) (h : e.predict x u dt xjac = .ok x') :
    ∃ t d, predictTime x.state.stamp u dt = .ok (t, d) ∧ 0 ≤ d ∧
    ((u = none ∧ x' = x) ∨ ∃ u', u = some u' ∧
      x' = e.propagate x u' t d (xjac.getD x.state)) := by
  cases hp : predictTime x.state.stamp u dt with
  | error err =>
    unfold EkfEnv.predict at h
    rw [hp] at h
    cases h
  | ok r =>
    obtain ⟨t, d⟩ := r
    rw [predict_eq e x u dt xjac t d hp] at h
    refine ⟨t, d, rfl, (predictTime_ok hp).1, ?_⟩
    rcases u with _ | u
    · left; simp at h; exact ⟨rfl, h.symm⟩
    · right; simp at h; exact ⟨u, rfl, h.symm⟩

theorem predict_psd (e : EkfEnv V U n)
    (hQ : ∀ x u dt, 0 ≤ dt → (e.proc.covariance x u dt).PosSemidef)
    (x : SWC V n) (u : Option (Inp U)) (dt : Option ℝ)
    (xjac : Option (St V)) (x' : SWC V n) (hP : x.cov.PosSemidef)
    (h : e.predict x u dt xjac = .ok x') : x'.cov.PosSemidef := by
  obtain ⟨t, d, _, hd, ⟨_, rfl⟩ | ⟨u', _, rfl⟩⟩ := predict_cases e x u dt xjac x' h
  · exact hP
  · have := psd_add (psd_conj hP (e.proc.jacobian x.state u' d)) (hQ (xjac.getD x.state) u' d hd)
    unfold EkfEnv.propagate
    simp only
    rw [symmetrize_eq (psd_symm this)]
    exact this

/-- What `correct` hands to the fusion step: the estimate after stamp filling and the optional
prediction. -/
theorem advance_cases (e : EkfEnv V U n) (x : SWC V n) (y : Meas V n)
    (u : Option (Inp U)) (xp : SWC V n) (h : e.advance x y u = .ok xp) :
    (xp.cov = x.cov ∧ xp.state.value = x.state.value) ∨
        ∃ (x1 : SWC V n) (d : ℝ), x1.cov = x.cov ∧ x1.state.value = x.state.value ∧
          e.predict x1 u (some d) none = .ok xp := by
  unfold EkfEnv.advance at h
  simp only at h
  set x1 : SWC V n := (match x.state.stamp with
    | none => { x with state := { x.state with stamp := y.stamp } }
    | some _ => x) with hx1
  have hcov : x1.cov = x.cov := by rw [hx1]; split <;> rfl
  have hval : x1.state.value = x.state.value := by rw [hx1]; split <;> rfl
  split at h
  · cases h; exact .inl ⟨hcov, hval⟩
  · split at h
    · cases h
    · split at h
      · cases h
      · split at h
        · cases h; exact .inl ⟨hcov, hval⟩
        · split at h
          · exact .inr ⟨x1, _, hcov, hval, h⟩
          · cases h; exact .inl ⟨hcov, hval⟩

theorem advance_psd (e : EkfEnv V U n)
    (hQ : ∀ x u dt, 0 ≤ dt → (e.proc.covariance x u dt).PosSemidef)
    (x : SWC V n) (y : Meas V n) (u : Option (Inp U)) (xp : SWC V n) (hP : x.cov.PosSemidef)
    (h : e.advance x y u = .ok xp) : xp.cov.PosSemidef := by
  rcases advance_cases e x y u xp h with ⟨h1, _⟩ | ⟨x1, d, h1, _, h2⟩
  · rw [h1]; exact hP
  · exact predict_psd e hQ x1 u (some d) none xp (by rw [h1]; exact hP) h2

theorem correct_ok (e : EkfEnv V U n) (x : SWC V n) (y : Meas V n)
    (u : Option (Inp U)) (xjac : Option (St V)) (reject : Option Bool) (x' : SWC V n)
    (h : e.correct x y u xjac reject = .ok x') :
    ∃ xp d, e.advance x y u = .ok xp ∧
      e.fuse xp y xjac (reject.getD e.rejectOutliers) = .ok (x', d) := by
  unfold EkfEnv.correct EkfEnv.correctD at h
  simp only [bind, Except.bind] at h
  cases ha : e.advance x y u with
  | error err => rw [ha] at h; cases h
  | ok xp =>
    rw [ha] at h
    simp only at h
    cases hf : e.fuse xp y xjac (reject.getD e.rejectOutliers) with
    | error err => rw [hf] at h; cases h
    | ok r =>
      rw [hf] at h
      simp [Except.map] at h
      exact ⟨xp, r.2, rfl, by rw [hf, ← h]⟩

theorem fuse_psd (e : EkfEnv V U n) (x : SWC V n) (y : Meas V n) (xjac : Option (St V))
    (rej : Bool) (hR : ∀ s, (y.model.covariance s).PosSemidef) (hP : x.cov.PosSemidef)
    (x' : SWC V n) (d) (h : e.fuse x y xjac rej = .ok (x', d)) :
    x'.cov.PosSemidef ∧ (x.cov - x'.cov).PosSemidef := by
  rcases fuse_cases e x y xjac rej x' d h with rfl | ⟨yc, _, hd, rfl⟩
  · exact ⟨hP, by rw [sub_self]; exact PosSemidef.zero⟩
  · exact ⟨kalmanUpdate_cov_psd e x y xjac yc hP (hR _) hd,
      kalmanUpdate_cov_le e x y xjac yc hP (hR _) hd⟩

end Verif
