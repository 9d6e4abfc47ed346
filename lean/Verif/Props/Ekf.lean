import Verif.Lemmas.Ekf
import Verif.Lemmas.Info
import Verif.Model.Linear
import Mathlib.Data.Real.StarOrdered
import Mathlib.Tactic.NormNum
import Mathlib.Tactic.Positivity

/-!
Property theorems about `ExtendedKalmanFilter` (C01 - C09).
`PosSemidef` / `PosDef` are Mathlib's (symmetric, non-negative / positive quadratic form).
-/

set_option linter.unusedVariables false

namespace Verif

open Matrix

variable {V U : Type} {n : ℕ}

/-! ### C01 -/

/-- **C01.** After any finite interleaving of `predict` and `correct` calls that did not raise, started
at a PSD covariance, with PSD process and measurement covariances, the covariance is PSD
(in particular symmetric). State space, models, Jacobians, dimensions and outlier threshold arbitrary. -/
theorem C01_ekf_history_psd (e : EkfEnv V U n)
    (hQ : ∀ x u dt, 0 ≤ dt → (e.proc.covariance x u dt).PosSemidef)
    (ops : List (EkfOp V U n))
    (hR : ∀ y u xjac rej, EkfOp.correct y u xjac rej ∈ ops → ∀ s, (y.model.covariance s).PosSemidef)
    (x0 : SWC V n) (hP : x0.cov.PosSemidef) (x : SWC V n) (h : e.run x0 ops = .ok x) :
    x.cov.PosSemidef := by
  unfold EkfEnv.run at h
  induction ops generalizing x0 with
  | nil => simp [List.foldlM, pure, Except.pure] at h; rw [← h]; exact hP
  | cons op ops ih =>
    rw [List.foldlM_cons] at h
    cases hs : e.step x0 op with
    | error err => rw [hs] at h; cases h
    | ok x1 =>
      rw [hs] at h
      refine ih (fun y u xj rej hm => hR y u xj rej (List.mem_cons_of_mem _ hm)) x1 ?_ h
      cases op with
      | predict u dt xj => exact predict_psd e hQ x0 u dt xj x1 hP hs
      | correct y u xj rej =>
        obtain ⟨xp, d, ha, hf⟩ := correct_ok e x0 y u xj rej x1 hs
        exact (fuse_psd e xp y xj _ (hR y u xj rej (by simp)) (advance_psd e hQ x0 y u xp hP ha)
          x1 d hf).1

/-! ### C02 -/

/-- **C02.** `correct` without prediction (`u = None`) never increases the covariance in the Loewner
order, whatever the measurement, model, outlier verdict and Jacobian evaluation point. -/
theorem C02_correct_decreases (e : EkfEnv V U n) (x : SWC V n) (y : Meas V n)
    (xjac : Option (St V)) (rej : Option Bool)
    (hR : ∀ s, (y.model.covariance s).PosSemidef) (hP : x.cov.PosSemidef) (x' : SWC V n)
    (h : e.correct x y none xjac rej = .ok x') : (x.cov - x'.cov).PosSemidef := by
  obtain ⟨xp, d, ha, hf⟩ := correct_ok e x y none xjac rej x' h
  have hc : xp.cov = x.cov := by
    rcases advance_cases e x y none xp ha with ⟨h1, _⟩ | ⟨x1, d, h1, _, h2⟩
    · exact h1
    · obtain ⟨_, _, _, _, ⟨_, rfl⟩ | ⟨_, h3, _⟩⟩ := predict_cases e x1 none (some d) none xp h2
      · exact h1
      · cases h3
  have := (fuse_psd e xp y xjac _ hR (by rw [hc]; exact hP) x' d hf).2
  rwa [hc] at this

/-- **C02 (with prediction).** With an input, `correct` is `predict` followed by `correct` without
input, so the decrease is with respect to the predicted estimate. -/
theorem C02_correct_eq_predict_then_correct (e : EkfEnv V U n) (x : SWC V n) (y : Meas V n)
    (u : Inp U) (xjac : Option (St V)) (rej : Option Bool) (tx ty : ℝ)
    (hx : x.state.stamp = some tx) (hy : y.stamp = some ty) (hlt : ty - tx > 1 / 10 ^ 11) :
    e.correct x y (some u) xjac rej =
      (e.predict x (some u) (some (ty - tx)) none).bind fun xp => e.correct xp y none xjac rej := by
  have hpos : (0 : ℝ) ≤ ty - tx := le_trans (by positivity) hlt.le
  have hng : ¬ (ty - tx < -(10 ^ 10 : ℝ)) := by
    apply not_lt.2; exact le_trans (by norm_num) hpos
  rw [predict_some_some e x u tx (ty - tx) none hx hpos]
  have h1 : e.advance x y (some u) = .ok (e.propagate x u tx (ty - tx) x.state) := by
    unfold EkfEnv.advance
    simp only [hx, hy, if_neg hng, if_pos hlt]
    rw [predict_some_some e x u tx (ty - tx) none hx hpos]; rfl
  have h2 : e.advance (e.propagate x u tx (ty - tx) x.state) y none
      = .ok (e.propagate x u tx (ty - tx) x.state) := by
    unfold EkfEnv.advance
    have : ¬ (ty - (tx + (ty - tx)) < -(10 ^ 10 : ℝ)) := by
      apply not_lt.2
      have : ty - (tx + (ty - tx)) = 0 := by ring
      rw [this]; norm_num
    simp only [EkfEnv.propagate, hy, if_neg this]
  simp only [Except.bind, Option.getD_none]
  unfold EkfEnv.correct EkfEnv.correctD
  rw [h1, h2]

/-! ### Totality -/

/-- **C67.** With a PD measurement covariance and a PSD prior, `correct` never raises a singular-matrix
error: without an input it returns a result whenever the state and measurement stamps are within the
code's guard (and always when the measurement carries no stamp). -/
theorem C67_correct_total (e : EkfEnv V U n) (x : SWC V n) (y : Meas V n)
    (xjac : Option (St V)) (rej : Option Bool)
    (hR : ∀ s, (y.model.covariance s).PosDef) (hP : x.cov.PosSemidef)
    (ht : ∀ tx ty, x.state.stamp = some tx → y.stamp = some ty → -(10 ^ 10 : ℝ) ≤ ty - tx) :
    ∃ x', e.correct x y none xjac rej = .ok x' := by
  have ha : ∃ xp, e.advance x y none = .ok xp ∧ xp.cov = x.cov := by
    unfold EkfEnv.advance
    rcases hx : x.state.stamp with _ | tx <;> rcases hy : y.stamp with _ | ty
    · exact ⟨_, rfl, rfl⟩
    · refine ⟨{ x with state := { x.state with stamp := some ty } }, ?_, rfl⟩
      simp
    · refine ⟨x, ?_, rfl⟩
      simp
    · refine ⟨x, ?_, rfl⟩
      simp only [hx]
      rw [if_neg (not_lt.2 (ht tx ty hx hy))]
  obtain ⟨xp, ha, hc⟩ := ha
  have hf : ∃ r, e.fuse xp y xjac (rej.getD e.rejectOutliers) = .ok r := by
    cases hy : y.model.evaluate xp.state with
    | none => exact ⟨_, fuse_none e xp y xjac _ hy⟩
    | some yc =>
      have hd : (innovCov xp y xjac).det ≠ 0 :=
        pd_det (innov_pd (by rw [hc]; exact hP) _ (hR _))
      cases hr : rej.getD e.rejectOutliers with
      | false => exact ⟨_, fuse_noreject e xp y xjac yc hy hd⟩
      | true =>
        rw [fuse_reject e xp y xjac yc hy hd]
        split
        · exact ⟨_, rfl⟩
        · exact ⟨_, fuse_noreject e xp y xjac yc hy hd⟩
  obtain ⟨r, hf⟩ := hf
  refine ⟨r.1, ?_⟩
  unfold EkfEnv.correct EkfEnv.correctD
  rw [ha]
  simp only [bind, Except.bind]
  rw [hf]; rfl

/-! ### C03, C04: linear measurements of a vector state -/

/-- The EKF on a vector state (`VectorState.plus` is addition, `navlie/lib/states.py:33-42`). -/
def vecEnv (proc : ProcModel (Vec n) U n) (rej : Bool) (chi : ℕ → ℝ) : EkfEnv (Vec n) U n where
  proc := proc
  rejectOutliers := rej
  plus x dx := x + dx
  chi2ppf99 := chi

/-- Helper: what `correct` returns on a linear measurement with PSD prior and PD noise. -/
theorem correct_linear (proc : ProcModel (Vec n) U n) (rej : Bool) (chi : ℕ → ℝ)
    {m : ℕ} (C : Mat m n) (R : Mat m m) (hR : R.PosDef) (y : Vec m) (t : ℝ)
    (x : SWC (Vec n) n) (hP : x.cov.PosSemidef) (hx : x.state.stamp = some t) :
    (vecEnv proc rej chi).correct x (linMeas C R y (some t)) none none (some false) = .ok
      { state := { value := x.state.value + kGain x.cov C R *ᵥ (y - C *ᵥ x.state.value)
                   stamp := some t }
        cov := kCov x.cov C R } := by
  have ha : (vecEnv proc rej chi).advance x (linMeas C R y (some t)) none = .ok x := by
    unfold EkfEnv.advance
    simp only [hx, linMeas, sub_self]
    rw [if_neg (by norm_num)]
  have hd : (innovCov x (linMeas C R y (some t)) none).det ≠ 0 := pd_det (innov_pd hP C hR)
  have hf := fuse_noreject (vecEnv proc rej chi) x (linMeas C R y (some t)) none
    (C *ᵥ x.state.value) rfl hd
  unfold EkfEnv.correct EkfEnv.correctD
  rw [ha]
  simp only [bind, Except.bind, Option.getD_some]
  rw [hf]
  simp only [Except.map]
  congr 1
  unfold kalmanUpdate
  have hs : symmetrize (kCov x.cov C R) = kCov x.cov C R :=
    symmetrize_eq (psd_symm (kCov_psd hP C hR))
  simp only [EkfEnv.plusSt, hx]
  congr 1

/-- Negative log posterior (times two) of `v` given the prior `(x, P)` and the measurement `y = C v + noise`:
the specification against which C03 is stated. -/
noncomputable def mapCost {m : ℕ} (x : Vec n) (P : Mat n n) (C : Mat m n) (R : Mat m m) (y : Vec m)
    (v : Vec n) : ℝ :=
  (v - x) ⬝ᵥ P⁻¹ *ᵥ (v - x) + (y - C *ᵥ v) ⬝ᵥ R⁻¹ *ᵥ (y - C *ᵥ v)

/-- **C03.** On a vector state with a linear measurement, `correct` returns the exact Gaussian
posterior: the mean is the unique minimizer of the negative log posterior and the covariance is
`(P⁻¹ + Cᵀ R⁻¹ C)⁻¹`. -/
theorem C03_linear_correct_is_map (proc : ProcModel (Vec n) U n) (rejD : Bool) (chi : ℕ → ℝ)
    {m : ℕ} (C : Mat m n) (R : Mat m m) (hR : R.PosDef) (y : Vec m) (t : ℝ)
    (x : SWC (Vec n) n) (hP : x.cov.PosDef) (hx : x.state.stamp = some t) :
    ∃ x', (vecEnv proc rejD chi).correct x (linMeas C R y (some t)) none none (some false) = .ok x' ∧
      x'.state.stamp = some t ∧
      x'.cov = (x.cov⁻¹ + Cᵀ * R⁻¹ * C)⁻¹ ∧
      ∀ v, v ≠ x'.state.value →
        mapCost x.state.value x.cov C R y x'.state.value < mapCost x.state.value x.cov C R y v := by
  refine ⟨_, correct_linear proc rejD chi C R hR y t x hP.posSemidef hx, rfl, kCov_info hP C hR, ?_⟩
  intro v hv
  unfold mapCost
  have h := complete_square hP C hR x.state.value y v
  simp only at h
  rw [h]
  have := pd_dot (info_pd hP C hR) (sub_ne_zero.2 hv)
  simp only at this ⊢
  linarith

/-- **C04.** Two linear measurements taken at the state's time can be fused in either order with the
same result (PSD prior, PD noises, outlier rejection off for these calls). -/
theorem C04_simultaneous_commute (proc : ProcModel (Vec n) U n) (rejD : Bool) (chi : ℕ → ℝ)
    {m p : ℕ} (C : Mat m n) (R : Mat m m) (hR : R.PosDef) (y : Vec m)
    (D : Mat p n) (T : Mat p p) (hT : T.PosDef) (w : Vec p) (t : ℝ)
    (x : SWC (Vec n) n) (hP : x.cov.PosSemidef) (hx : x.state.stamp = some t) :
    ∃ x', (((vecEnv proc rejD chi).correct x (linMeas C R y (some t)) none none (some false)).bind
        fun x1 => (vecEnv proc rejD chi).correct x1 (linMeas D T w (some t)) none none (some false))
          = .ok x' ∧
      (((vecEnv proc rejD chi).correct x (linMeas D T w (some t)) none none (some false)).bind
        fun x1 => (vecEnv proc rejD chi).correct x1 (linMeas C R y (some t)) none none (some false))
          = .ok x' := by
  rw [correct_linear proc rejD chi C R hR y t x hP hx,
    correct_linear proc rejD chi D T hT w t x hP hx]
  simp only [Except.bind]
  have hP1 := kCov_psd hP C hR
  have hP2 := kCov_psd hP D hT
  rw [correct_linear proc rejD chi D T hT w t _ hP1 rfl,
    correct_linear proc rejD chi C R hR y t _ hP2 rfl]
  refine ⟨_, rfl, ?_⟩
  have hS := pd_det (innov_pd hP C hR)
  have hS' := pd_det (innov_pd hP1 D hT)
  have hZ := pd_det (innov_pd hP D hT)
  have hZ' := pd_det (innov_pd hP2 C hR)
  have c1 := (kCov_seq x.cov C R D T hS (pd_det hR) hS' (pd_det hT)).1
  have c2 := (kCov_seq x.cov D T C R hZ (pd_det hT) hZ' (pd_det hR)).1
  have cc : kCov (kCov x.cov D T) C R = kCov (kCov x.cov C R) D T := by
    rw [c1, c2, add_comm (Dᵀ * T⁻¹ * D)]
  have m1 := kMean_seq x.cov C R D T hS (pd_det hR) hS' (pd_det hT) x.state.value y w
  have m2 := kMean_seq x.cov D T C R hZ (pd_det hT) hZ' (pd_det hR) x.state.value w y
  simp only at m1 m2
  simp only
  rw [m1, m2, cc, add_comm (Dᵀ *ᵥ _)]

/-! ### C05: time logic of `predict` -/

/-- The time from which `predict` starts: the state's stamp, or the input's if the state has none. -/
def baseTime (x : SWC V n) (u : Inp U) : Option ℝ :=
  match x.state.stamp with
  | some t => some t
  | none => u.stamp

/-- The interval to be predicted is `d`, from base time `t`: either given, or the input stamp minus `t`. -/
def IsInterval (dt : Option ℝ) (u : Inp U) (t d : ℝ) : Prop :=
  dt = some d ∨ (dt = none ∧ u.stamp = some (t + d))

/-- **C05.** A successful `predict` with an input covers a non-negative interval, returns the process
model's state stamped base time + interval, and the covariance `A P Aᵀ + Q` (symmetrized). -/
theorem C05_predict_ok (e : EkfEnv V U n) (x : SWC V n) (u : Inp U) (dt : Option ℝ)
    (xjac : Option (St V)) (x' : SWC V n) :
    e.predict x (some u) dt xjac = .ok x' ↔
      ∃ t d, baseTime x u = some t ∧ IsInterval dt u t d ∧ 0 ≤ d ∧
        x'.state.value = (e.proc.evaluate x.state u d).value ∧
        x'.state.stamp = some (t + d) ∧
        x'.cov = symmetrize (e.proc.jacobian x.state u d * x.cov * (e.proc.jacobian x.state u d)ᵀ
          + e.proc.covariance (xjac.getD x.state) u d) := by
  constructor
  · intro h
    obtain ⟨t, d, ht, hd, ⟨h1, _⟩ | ⟨u', h1, rfl⟩⟩ := predict_cases e x (some u) dt xjac x' h
    · cases h1
    · cases h1
      obtain ⟨_, hb, hi⟩ := predictTime_ok ht
      refine ⟨t, d, ?_, ?_, hd, rfl, rfl, rfl⟩
      · unfold baseTime
        rcases hb with hb | ⟨hb, u', hu', hs⟩
        · rw [hb]
        · rw [hb]; cases hu'; exact hs
      · rcases hi with hi | ⟨hi, u', tu, hu', hs, hd'⟩
        · exact .inl hi
        · cases hu'
          refine .inr ⟨hi, ?_⟩
          rw [hs, hd']; congr 1; ring
  · rintro ⟨t, d, hb, hi, hd, h1, h2, h3⟩
    have ht : predictTime x.state.stamp (some u) dt = .ok (t, d) := by
      unfold baseTime at hb
      rcases u with ⟨uv, us⟩
      generalize x.state.stamp = xs at hb
      rcases hi with rfl | ⟨rfl, hi⟩
      · rcases xs with _ | tx <;> simp at hb <;> subst hb <;>
          simp [predictTime, bind, Except.bind, not_lt.2 hd]
      · simp only at hi
        subst hi
        rcases xs with _ | tx <;> simp at hb <;> subst hb <;>
          simp [predictTime, bind, Except.bind, not_lt.2 hd]
    rw [predict_eq e x (some u) dt xjac t d ht]
    congr 1
    rcases x' with ⟨⟨v, s⟩, P⟩
    simp only at h1 h2 h3
    simp only [EkfEnv.propagate]
    rw [h1, h2, h3]

/-- **C05.** `RuntimeError` exactly for negative intervals. -/
theorem C05_predict_runtimeError (e : EkfEnv V U n) (x : SWC V n) (u : Inp U) (dt : Option ℝ)
    (xjac : Option (St V)) :
    e.predict x (some u) dt xjac = .error .runtimeError ↔
      ∃ t d, baseTime x u = some t ∧ IsInterval dt u t d ∧ d < 0 := by
  rw [predict_error_iff]
  unfold baseTime IsInterval
  rcases u with ⟨uv, us⟩
  generalize x.state.stamp = xs
  rcases xs with _ | tx <;> rcases us with _ | tu <;> rcases dt with _ | d <;>
    simp [predictTime, bind, Except.bind]
  · constructor
    · intro h; exact ⟨tu - tx, by ring, by linarith⟩
    · rintro ⟨d, h1, h2⟩; linarith

/-- **C05.** `ValueError` exactly when neither the state nor the input carries a stamp. -/
theorem C05_predict_valueError (e : EkfEnv V U n) (x : SWC V n) (u : Inp U) (dt : Option ℝ)
    (xjac : Option (St V)) :
    e.predict x (some u) dt xjac = .error .valueError ↔ x.state.stamp = none ∧ u.stamp = none := by
  rw [predict_error_iff]
  rcases u with ⟨uv, us⟩
  generalize x.state.stamp = xs
  rcases xs with _ | tx <;> rcases us with _ | tu <;> rcases dt with _ | d <;>
    simp [predictTime, bind, Except.bind]
  all_goals (split_ifs <;> simp)

/-- **C05.** Without an input, a stamped state and a non-negative interval: the estimate is returned
unchanged (not even its stamp advances). -/
theorem C05_predict_no_input (e : EkfEnv V U n) (x : SWC V n) (t d : ℝ) (xjac : Option (St V))
    (hx : x.state.stamp = some t) (hd : 0 ≤ d) : e.predict x none (some d) xjac = .ok x := by
  rw [predict_eq e x none (some d) xjac t d]
  unfold predictTime
  simp [hx, bind, Except.bind, not_lt.2 hd]

/-! ### C06: decision logic of `correct` -/

/-- **C06.** If the measurement is not later than the state by more than `1e-11` (and not before the
guard), the input is ignored: no prediction takes place. -/
theorem C06_no_predict (e : EkfEnv V U n) (x : SWC V n) (y : Meas V n) (u : Option (Inp U))
    (xjac : Option (St V)) (rej : Option Bool) (tx ty : ℝ) (hx : x.state.stamp = some tx)
    (hy : y.stamp = some ty) (h1 : -(10 ^ 10 : ℝ) ≤ ty - tx) (h2 : ty - tx ≤ 1 / 10 ^ 11) :
    e.correctD x y u xjac rej = e.fuse x y xjac (rej.getD e.rejectOutliers) := by
  have ha : e.advance x y u = .ok x := by
    unfold EkfEnv.advance
    simp only [hx, hy]
    rw [if_neg (not_lt.2 h1)]
    rcases u with _ | u
    · rfl
    · simp only []
      rw [if_neg (not_lt.2 h2)]
  unfold EkfEnv.correctD
  rw [ha]; rfl

/-- **C06.** A measurement model returning `None` leaves the (possibly predicted) estimate unchanged. -/
theorem C06_none_unchanged (e : EkfEnv V U n) (x : SWC V n) (y : Meas V n)
    (xjac : Option (St V)) (rej : Option Bool) (t : ℝ) (hx : x.state.stamp = some t)
    (hy : y.stamp = some t) (u : Option (Inp U)) (hn : y.model.evaluate x.state = none) :
    e.correct x y u xjac rej = .ok x := by
  unfold EkfEnv.correct
  rw [C06_no_predict e x y u xjac rej t t hx hy (by rw [sub_self]; norm_num)
    (by rw [sub_self]; positivity), fuse_none e x y xjac _ hn]
  rfl

/-- **C06.** With outlier rejection on, the measurement is rejected exactly when its normalized
innovation squared exceeds the chi-square quantile; then value, covariance and stamp are unchanged and the
details report `is_outlier`; otherwise the result is the one without rejection. -/
theorem C06_outlier (e : EkfEnv V U n) (x : SWC V n) (y : Meas V n)
    (xjac : Option (St V)) (t : ℝ) (hx : x.state.stamp = some t)
    (hy : y.stamp = some t) (u : Option (Inp U)) (yc : Vec y.m)
    (he : y.model.evaluate x.state = some yc)
    (S : Mat y.m y.m) (hS : S = y.model.jacobian x.state * x.cov * (y.model.jacobian x.state)ᵀ
      + y.model.covariance (xjac.getD x.state)) (hd : S.det ≠ 0) :
    ((y.value - yc) ⬝ᵥ S⁻¹ *ᵥ (y.value - yc) > e.chi2ppf99 y.m →
      e.correctD x y u xjac (some true) = .ok (x, some ⟨y.m, y.value - yc, S, true⟩)) ∧
    (¬ (y.value - yc) ⬝ᵥ S⁻¹ *ᵥ (y.value - yc) > e.chi2ppf99 y.m →
      e.correctD x y u xjac (some true) = e.correctD x y u xjac (some false) ∧
      ∃ x', e.correctD x y u xjac (some true) = .ok (x', some ⟨y.m, y.value - yc, S, false⟩)) := by
  have hd' : (innovCov x y xjac).det ≠ 0 := by rw [hS] at hd; exact hd
  have hS' : S = innovCov x y xjac := hS
  have hz : (y.value - yc) = fun i => y.value i - yc i := rfl
  rw [C06_no_predict e x y u xjac (some true) t t hx hy (by rw [sub_self]; norm_num)
    (by rw [sub_self]; positivity), C06_no_predict e x y u xjac (some false) t t hx hy
    (by rw [sub_self]; norm_num) (by rw [sub_self]; positivity)]
  simp only [Option.getD_some]
  rw [fuse_reject e x y xjac yc he hd', hS', hz]
  constructor
  · intro h; rw [if_pos h]
  · intro h; rw [if_neg h]
    exact ⟨rfl, _, fuse_noreject e x y xjac yc he hd'⟩

/-- Specification of the stamp after `correct`: a state without stamp takes the measurement's stamp; with
an input and a later measurement the estimate is moved to the measurement's stamp; otherwise the state's
stamp is kept. -/
noncomputable def stampAfter (tx ty : Option ℝ) (hasInput : Bool) : Option ℝ :=
  match tx, ty, hasInput with
  | none, ty, _ => ty
  | some tx, some ty, true => if ty - tx > 1 / 10 ^ 11 then some ty else some tx
  | some tx, _, _ => some tx

/-- **C06.** The stamp of the corrected estimate is the stamp of the estimate that was fused; a state
without a stamp takes the measurement's. -/
theorem C06_stamp (e : EkfEnv V U n) (x : SWC V n) (y : Meas V n) (u : Option (Inp U))
    (xjac : Option (St V)) (rej : Option Bool) (x' : SWC V n)
    (h : e.correct x y u xjac rej = .ok x') :
    x'.state.stamp = stampAfter x.state.stamp y.stamp u.isSome := by
  obtain ⟨xp, d, ha, hf⟩ := correct_ok e x y u xjac rej x' h
  have hxp : x'.state.stamp = xp.state.stamp := by
    rcases fuse_cases e xp y xjac _ x' d hf with rfl | ⟨yc, _, _, rfl⟩
    · rfl
    · rfl
  rw [hxp]
  unfold EkfEnv.advance at ha
  unfold stampAfter
  rcases hx : x.state.stamp with _ | tx <;> rcases hy : y.stamp with _ | ty <;>
    rcases u with _ | u <;> simp only [hx, hy, Option.isSome] at ha ⊢
  · cases ha; rfl
  · cases ha; rfl
  · simp at ha
    split at ha <;> cases ha; rfl
  · simp at ha
    split at ha
    · cases ha
    · split at ha
      · rename_i h1; exfalso; norm_num at h1
      · cases ha; rfl
  · cases ha; exact hx
  · cases ha; exact hx
  · split at ha
    · cases ha
    · cases ha; exact hx
  · split at ha
    · cases ha
    · split at ha
      · rename_i h1
        rw [if_pos h1]
        have hpos : (0 : ℝ) ≤ ty - tx := le_trans (by positivity) h1.le
        rw [predict_some_some e x u tx _ none hx hpos] at ha
        cases ha
        simp [EkfEnv.propagate]
      · rename_i h1
        rw [if_neg h1]
        cases ha; exact hx

/-! ### Concrete instances used as non-vacuity checks and as counterexamples -/

/-- A scalar random walk driven by a velocity input, with noise `dt`. -/
noncomputable def walk1 : ProcModel (Vec 1) ℝ 1 :=
  linProcModel (fun _ _ => 1) (fun u dt _ => u.value * dt) (fun _ dt => dt • (1 : Mat 1 1))

/-- scalar EKF -/
noncomputable def env1 : EkfEnv (Vec 1) ℝ 1 := vecEnv walk1 false (fun _ => 6)

/-- scalar estimate `0 ± 1` at time `t` -/
noncomputable def est1 (t : ℝ) : SWC (Vec 1) 1 := { state := ⟨fun _ => 0, some t⟩, cov := 1 }

/-- scalar position measurement `y = 2 ± 1` at time `t` -/
noncomputable def meas1 (t : ℝ) : Meas (Vec 1) 1 :=
  linMeas (m := 1) 1 1 (fun _ => 2) (some t)

theorem one_pd (m : ℕ) : (1 : Mat m m).PosDef := PosDef.one

theorem walk1_psd : ∀ x u dt, 0 ≤ dt → (env1.proc.covariance x u dt).PosSemidef := by
  intro x u dt h
  exact PosSemidef.smul PosSemidef.one h

/-- Non-vacuity of C01: a history with a prediction and two fusions whose hypotheses hold and that
does not raise. -/
example : ∃ x, env1.run (est1 0)
    [.predict (some ⟨3, some 1⟩) none none, .correct (meas1 1) none none none,
     .correct (meas1 1) none none (some true)] = .ok x ∧ x.cov.PosSemidef := by
  have hp : ∃ x1, env1.predict (est1 0) (some ⟨3, some 1⟩) none none = .ok x1 :=
    ⟨_, predict_eq _ _ _ _ _ 0 1 (by unfold predictTime; simp [est1, bind, Except.bind])⟩
  obtain ⟨x1, hp⟩ := hp
  have h1 := predict_psd env1 walk1_psd _ _ _ _ _ (by exact PosSemidef.one) hp
  have s1 : x1.state.stamp = some 1 := by
    obtain ⟨t, d, hb, hi, _, _, hs, _⟩ := (C05_predict_ok _ _ _ _ _ _).1 hp
    rw [hs]
    simp [baseTime, est1] at hb
    rcases hi with hi | ⟨_, hi⟩
    · cases hi
    · simp at hi; rw [← hi]
  obtain ⟨x2, h2⟩ := C67_correct_total env1 x1 (meas1 1) none none (fun _ => one_pd 1) h1
    (by intro tx ty hx hy; rw [s1] at hx; cases hx; cases hy; norm_num)
  have s2 : x2.state.stamp = some 1 := by
    have := C06_stamp _ _ _ _ _ _ _ h2
    rw [this, s1]; rfl
  have hr2 : env1.run (est1 0) [.predict (some ⟨3, some 1⟩) none none, .correct (meas1 1) none none none]
      = .ok x2 := by
    simp [EkfEnv.run, EkfEnv.step, hp, h2, bind, Except.bind, pure, Except.pure]
  have p2 : x2.cov.PosSemidef := by
    refine C01_ekf_history_psd env1 walk1_psd _ ?_ (est1 0) PosSemidef.one x2 hr2
    intro y u xj rej hm s
    simp at hm
    rw [hm.1]; exact PosSemidef.one
  obtain ⟨x3, h3⟩ := C67_correct_total env1 x2 (meas1 1) none (some true) (fun _ => one_pd 1) p2
    (by intro tx ty hx hy; rw [s2] at hx; cases hx; cases hy; norm_num)
  refine ⟨x3, ?_, ?_⟩
  · simp [EkfEnv.run, EkfEnv.step, hp, h2, h3, bind, Except.bind, pure, Except.pure]
  · have hr3 : env1.run (est1 0)
      [.predict (some ⟨3, some 1⟩) none none, .correct (meas1 1) none none none,
       .correct (meas1 1) none none (some true)] = .ok x3 := by
      simp [EkfEnv.run, EkfEnv.step, hp, h2, h3, bind, Except.bind, pure, Except.pure]
    refine C01_ekf_history_psd env1 walk1_psd _ ?_ (est1 0) PosSemidef.one x3 hr3
    intro y u xj rej hm s
    simp at hm
    rcases hm with hm | hm <;> (rw [hm.1]; exact PosSemidef.one)

/-- Non-vacuity of C03/C04: the premises hold for the scalar instance. -/
example : (est1 0).cov.PosDef ∧ (est1 0).state.stamp = some 0 ∧ (1 : Mat 1 1).PosDef :=
  ⟨PosDef.one, rfl, PosDef.one⟩

/-- Non-vacuity of C02 with prediction. -/
example : (est1 0).state.stamp = some 0 ∧ (meas1 1).stamp = some 1 ∧ (1 : ℝ) - 0 > 1 / 10 ^ 11 := by
  refine ⟨rfl, rfl, by norm_num⟩

/-! ### C07: out-of-order measurements -/

/-- **C07, what the code guarantees.** Without input, for a stamped state and measurement, `correct`
raises `RuntimeError` exactly when the measurement is more than `1e10` seconds older. -/
theorem C07_guard (e : EkfEnv V U n) (x : SWC V n) (y : Meas V n) (xjac : Option (St V))
    (rej : Option Bool) (tx ty : ℝ) (hx : x.state.stamp = some tx) (hy : y.stamp = some ty) :
    e.correct x y none xjac rej = .error .runtimeError ↔ ty - tx < -(10 ^ 10 : ℝ) := by
  constructor
  · intro h
    by_contra hn
    unfold EkfEnv.correct at h
    by_cases h2 : ty - tx ≤ 1 / 10 ^ 11
    · rw [C06_no_predict e x y none xjac rej tx ty hx hy (not_lt.1 hn) h2] at h
      cases hm : y.model.evaluate x.state with
      | none => rw [fuse_none e x y xjac _ hm] at h; cases h
      | some yc =>
        by_cases hd : (innovCov x y xjac).det = 0
        · rw [fuse_singular e x y xjac _ yc hm hd] at h; cases h
        · cases hr : rej.getD e.rejectOutliers with
          | false => rw [hr, fuse_noreject e x y xjac yc hm hd] at h; cases h
          | true =>
            rw [hr, fuse_reject e x y xjac yc hm hd, fuse_noreject e x y xjac yc hm hd] at h
            split at h <;> cases h
    · have ha : e.advance x y none = .ok x := by
        unfold EkfEnv.advance
        simp only [hx, hy]
        rw [if_neg hn]
      unfold EkfEnv.correctD at h
      rw [ha] at h
      simp only [bind, Except.bind] at h
      cases hm : y.model.evaluate x.state with
      | none => rw [fuse_none e x y xjac _ hm] at h; cases h
      | some yc =>
        by_cases hd : (innovCov x y xjac).det = 0
        · rw [fuse_singular e x y xjac _ yc hm hd] at h; cases h
        · cases hr : rej.getD e.rejectOutliers with
          | false => rw [hr, fuse_noreject e x y xjac yc hm hd] at h; cases h
          | true =>
            rw [hr, fuse_reject e x y xjac yc hm hd, fuse_noreject e x y xjac yc hm hd] at h
            split at h <;> cases h
  · intro h
    have ha : e.advance x y none = .error .runtimeError := by
      unfold EkfEnv.advance
      simp only [hx, hy]
      rw [if_pos h]
    unfold EkfEnv.correct EkfEnv.correctD
    rw [ha]; rfl

/-- **C07, refuted.** "A measurement older than the state is refused" is false: the EKF fuses a
measurement stamped one hour before the state, moving the mean and leaving the stamp. -/
theorem C07_out_of_order_fused :
    ∃ (e : EkfEnv (Vec 1) ℝ 1) (x x' : SWC (Vec 1) 1) (y : Meas (Vec 1) 1) (tx ty : ℝ),
      x.state.stamp = some tx ∧ y.stamp = some ty ∧ ty < tx ∧
      e.correct x y none none none = .ok x' ∧ x'.state.value ≠ x.state.value ∧
      x'.state.stamp = some tx := by
  have hd : (innovCov (est1 3600) (meas1 0) none).det ≠ 0 :=
    pd_det (innov_pd (PosSemidef.one) _ PosDef.one)
  have hf := fuse_noreject env1 (est1 3600) (meas1 0) none ((1 : Mat 1 1) *ᵥ (est1 3600).state.value) rfl hd
  refine ⟨env1, est1 3600, kalmanUpdate env1 (est1 3600) (meas1 0) none
    ((1 : Mat 1 1) *ᵥ (est1 3600).state.value), meas1 0, 3600, 0, rfl, rfl,
    by norm_num, ?_, ?_, rfl⟩
  · unfold EkfEnv.correct
    rw [C06_no_predict env1 _ _ none none none 3600 0 rfl rfl (by norm_num) (by norm_num)]
    have : (none : Option Bool).getD env1.rejectOutliers = false := rfl
    rw [this, hf]
    rfl
  · intro h
    have h0 : (0 : ℝ) + (((1 : Mat 1 1) * (1 : Mat 1 1)ᵀ
        * ((1 : Mat 1 1) * 1 * (1 : Mat 1 1)ᵀ + 1)⁻¹) *ᵥ
        (fun i => (2 : ℝ) - ((1 : Mat 1 1) *ᵥ (fun _ => 0)) i)) 0 = 0 := congrFun h 0
    have hinv : ((1 : Mat 1 1) + (1 : Mat 1 1))⁻¹ = (1 / 2 : ℝ) • (1 : Mat 1 1) := by
      apply inv_eq_left_inv
      rw [← two_smul ℝ (1 : Mat 1 1), Matrix.smul_mul, Matrix.one_mul, smul_smul]; norm_num
    rw [transpose_one, Matrix.mul_one, Matrix.mul_one, hinv, Matrix.one_mul, smul_mulVec,
      one_mulVec, one_mulVec] at h0
    norm_num at h0

/-! ### C08: the Jacobian evaluation point -/

/-- **C08, documented behaviour (as a statement).** "The process Jacobian is evaluated at `x_jac`":
two process models with the same `evaluate` and `covariance` whose Jacobians agree at `x_jac` give the
same prediction. -/
def XjacHonoured (V U : Type) (n : ℕ) : Prop :=
  ∀ (e : EkfEnv V U n) (J1 J2 : St V → Inp U → ℝ → Mat n n) (x : SWC V n) (u : Inp U) (d : ℝ)
    (xj : St V), (∀ u d, J1 xj u d = J2 xj u d) →
    ({ e with proc := { e.proc with jacobian := J1 } } : EkfEnv V U n).predict x (some u) (some d) (some xj)
      = ({ e with proc := { e.proc with jacobian := J2 } } : EkfEnv V U n).predict x (some u) (some d)
          (some xj)

/-- **C08, refuted.** The documented behaviour does not hold: the Jacobian is evaluated at the current
estimate, not at `x_jac`. -/
theorem C08_xjac_not_honoured : ¬ XjacHonoured (Vec 1) ℝ 1 := by
  intro h
  have hh := h env1 (fun _ _ _ => 1) (fun s _ _ => if s.value 0 = 0 then 0 else 1) (est1 0) ⟨0, some 0⟩ 0
    ⟨fun _ => 1, some 0⟩ (by intro u d; simp)
  rw [predict_some_some _ (est1 0) _ 0 0 _ rfl le_rfl, predict_some_some _ (est1 0) _ 0 0 _ rfl le_rfl] at hh
  have h2 := congrArg (fun r : SWC (Vec 1) 1 => r.cov 0 0) (Except.ok.inj hh)
  simp [EkfEnv.propagate, symmetrize, est1, env1, vecEnv, walk1, linProcModel] at h2

/-- **C08, what the code guarantees.** The prediction depends on the Jacobian only through its value at
the *current estimate*, and on `x_jac` only through the process noise covariance evaluated there. -/
theorem C08_actual_dependency (e : EkfEnv V U n) (J1 J2 : St V → Inp U → ℝ → Mat n n)
    (Q1 Q2 : St V → Inp U → ℝ → Mat n n)
    (x : SWC V n) (u : Inp U) (dt : Option ℝ) (xj : St V)
    (hJ : ∀ u d, J1 x.state u d = J2 x.state u d) (hQ : ∀ u d, Q1 xj u d = Q2 xj u d) :
    ({ e with proc := { e.proc with jacobian := J1, covariance := Q1 } } : EkfEnv V U n).predict
        x (some u) dt (some xj)
      = ({ e with proc := { e.proc with jacobian := J2, covariance := Q2 } } : EkfEnv V U n).predict
        x (some u) dt (some xj) := by
  unfold EkfEnv.predict EkfEnv.propagate
  simp only [hJ, hQ, Option.getD_some]

/-! ### C09: splitting a prediction interval -/

/-- **C09.** If the process model is a flow for the given input (states compose, Jacobians multiply by
the chain rule, noise covariances accumulate), predicting `s` and then `t` equals predicting `s + t`. -/
theorem C09_predict_split (e : EkfEnv V U n) (u : Inp U) (x : SWC V n) (t0 s t : ℝ)
    (hs : 0 ≤ s) (ht : 0 ≤ t) (hx : x.state.stamp = some t0)
    (x1 : St V) (hx1 : x1 = { e.proc.evaluate x.state u s with stamp := some (t0 + s) })
    (hflow : (e.proc.evaluate x1 u t).value = (e.proc.evaluate x.state u (s + t)).value)
    (hjac : e.proc.jacobian x.state u (s + t) = e.proc.jacobian x1 u t * e.proc.jacobian x.state u s)
    (hcov : e.proc.covariance x.state u (s + t) = e.proc.jacobian x1 u t * e.proc.covariance x.state u s
      * (e.proc.jacobian x1 u t)ᵀ + e.proc.covariance x1 u t) :
    ((e.predict x (some u) (some s) none).bind fun x' => e.predict x' (some u) (some t) none)
      = e.predict x (some u) (some (s + t)) none := by
  rw [predict_some_some e x u t0 s none hx hs, predict_some_some e x u t0 (s + t) none hx (by linarith)]
  simp only [Except.bind]
  rw [predict_some_some e _ u (t0 + s) t none rfl ht]
  simp only [Option.getD_none]
  unfold EkfEnv.propagate
  simp only
  rw [← hx1, hflow, add_assoc]
  congr 2
  rw [hjac, hcov]
  unfold symmetrize
  simp only [transpose_add, transpose_mul, transpose_smul, transpose_transpose, Matrix.mul_add,
    Matrix.add_mul, Matrix.mul_smul, Matrix.smul_mul, smul_add, Matrix.mul_assoc, smul_smul]
  ext i j
  simp only [Matrix.add_apply, Matrix.smul_apply, smul_eq_mul]
  ring

/-- Non-vacuity of C09: the scalar random walk is a flow in this sense. -/
example (u : Inp ℝ) (s t : ℝ) (hs : 0 ≤ s) (ht : 0 ≤ t) :
    ((env1.predict (est1 0) (some u) (some s) none).bind fun x' => env1.predict x' (some u) (some t) none)
      = env1.predict (est1 0) (some u) (some (s + t)) none := by
  refine C09_predict_split env1 u (est1 0) 0 s t hs ht rfl _ rfl ?_ ?_ ?_
  · funext i
    simp [env1, vecEnv, walk1, linProcModel, est1]; ring
  · simp [env1, vecEnv, walk1, linProcModel]
  · simp [env1, vecEnv, walk1, linProcModel, add_smul]

end Verif
