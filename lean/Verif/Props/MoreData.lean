import Verif.Props.Honest
import Verif.Props.VanLoan
import Verif.Props.Integrators

/-!
C112: on a linear system the covariances that `run_filter` reports depend only on the models and the stamps, they are monotone in all
noise covariances, and additional measurements never increase them.
-/

set_option linter.unusedSectionVars false
set_option linter.unusedVariables false

namespace Verif

open Matrix

variable {n : ℕ} {U : Type}

/-! ### Specification -/

/-- A linear measurement `y = C x + noise`, covariance `R` of the noise. -/
structure LinM (n : ℕ) where
  m : ℕ
  C : Mat m n
  R : Mat m m
  value : Vec m
  stamp : ℝ

/-- The measurement object. -/
def LinM.obj (y : LinM n) : StMeas (Vec n) n := ⟨linMeas y.C y.R y.value (some y.stamp), y.stamp, rfl⟩

/-- `P` is at most `P'`: the difference is positive semidefinite. -/
def CovLe {m : ℕ} (P P' : Mat m m) : Prop := (P' - P).PosSemidef

/-- The same quantity measured at the same time, with values `v` and `v'`, the first with at most the noise of the second. -/
inductive LessNoisy : LinM n → LinM n → Prop
  | mk {m : ℕ} (C : Mat m n) (R R' : Mat m m) (v v' : Vec m) (s : ℝ) : R.PosDef → CovLe R R' →
      LessNoisy ⟨m, C, R, v, s⟩ ⟨m, C, R', v', s⟩

/-! ### Order on covariances -/

theorem covLe_refl {m : ℕ} (P : Mat m m) : CovLe P P := by
  unfold CovLe
  rw [sub_self]
  exact PosSemidef.zero

theorem covLe_trans {m : ℕ} {P P' P'' : Mat m m} (h : CovLe P P') (h' : CovLe P' P'') : CovLe P P'' := by
  unfold CovLe at *
  have := psd_add h h'
  rwa [show P' - P + (P'' - P') = P'' - P by abel] at this

theorem covLe_antisymm {m : ℕ} {P P' : Mat m m} (h : CovLe P P') (h' : CovLe P' P) : P = P' := by
  have h0 : (P' - P).trace = 0 := by
    have h1 := h.trace_nonneg
    have h2 := h'.trace_nonneg
    have h3 : (P - P').trace = -(P' - P).trace := by rw [← trace_neg, neg_sub]
    rw [h3] at h2
    linarith
  have := (PosSemidef.trace_eq_zero_iff h).1 h0
  exact (sub_eq_zero.1 this).symm

theorem covLe_conj {m k : ℕ} (A : Mat k m) {P P' : Mat m m} (h : CovLe P P') : CovLe (A * P * Aᵀ) (A * P' * Aᵀ) := by
  have := psd_conj h A
  rwa [Matrix.mul_sub, Matrix.sub_mul] at this

theorem covLe_add {m : ℕ} {P P' Q Q' : Mat m m} (h : CovLe P P') (h' : CovLe Q Q') : CovLe (P + Q) (P' + Q') := by
  have := psd_add h h'
  rwa [sub_add_sub_comm] at this

theorem covLe_pd {m : ℕ} {R R' : Mat m m} (h : R.PosDef) (h' : CovLe R R') : R'.PosDef := by
  have := pd_add_psd h h'
  rwa [add_sub_cancel] at this

theorem covLe_psd {m : ℕ} {R R' : Mat m m} (h : R.PosSemidef) (h' : CovLe R R') : R'.PosSemidef := by
  have := psd_add h h'
  rwa [add_sub_cancel] at this

/-- Any other gain gives at least the covariance of the Kalman gain. -/
theorem kCov_le_gain {m : ℕ} {P : Mat n n} (hP : P.PosSemidef) (C : Mat m n) {R : Mat m m} (hR : R.PosDef) (K : Mat n m) :
    CovLe (kCov P C R) ((1 - K * C) * P * (1 - K * C)ᵀ + K * R * Kᵀ) := by
  have hS := pd_det (innov_pd hP C hR)
  have hS' : (C * P * Cᵀ + R)ᵀ = C * P * Cᵀ + R := psd_symm (innov_pd hP C hR).posSemidef
  have hPt := psd_symm hP
  have hk := kGain_mul P C R hS
  have hkt : (C * P * Cᵀ + R) * (kGain P C R)ᵀ = C * P := by
    have := congrArg transpose hk
    rwa [transpose_mul, transpose_mul, hS', transpose_transpose, hPt] at this
  have key : (1 - K * C) * P * (1 - K * C)ᵀ + K * R * Kᵀ - kCov P C R
      = (K - kGain P C R) * (C * P * Cᵀ + R) * (K - kGain P C R)ᵀ := by
    have e1 : (K - kGain P C R) * (C * P * Cᵀ + R) * (K - kGain P C R)ᵀ
        = K * (C * P * Cᵀ + R) * Kᵀ - K * (C * P) - P * Cᵀ * Kᵀ + kGain P C R * C * P := by
      rw [transpose_sub, Matrix.mul_sub, Matrix.sub_mul, Matrix.sub_mul, hk, Matrix.sub_mul, Matrix.mul_assoc K _ (kGain P C R)ᵀ, hkt]
      rw [← hk, Matrix.mul_assoc (kGain P C R) _ (kGain P C R)ᵀ, hkt]
      simp only [Matrix.mul_assoc]
      abel
    rw [e1]
    unfold kCov
    simp only [transpose_sub, transpose_one, transpose_mul, Matrix.sub_mul, Matrix.mul_sub, Matrix.one_mul, Matrix.mul_one, Matrix.mul_add,
      Matrix.add_mul, Matrix.mul_assoc]
    abel
  unfold CovLe
  rw [key]
  exact psd_conj (innov_pd hP C hR).posSemidef _

/-- A correction is monotone in both covariances. -/
theorem kCov_mono {m : ℕ} {P P' : Mat n n} (hP : P.PosSemidef) (h : CovLe P P') (C : Mat m n) {R R' : Mat m m} (hR : R.PosDef)
    (hr : CovLe R R') : CovLe (kCov P C R) (kCov P' C R') := by
  have hP' := covLe_psd hP h
  have hR' := covLe_pd hR hr
  have h1 := kCov_le_gain hP C hR (kGain P' C R')
  have h2 := joseph P' C R' (psd_symm hP') _ (kGain_mul P' C R' (pd_det (innov_pd hP' C hR')))
  refine covLe_trans h1 ?_
  rw [show kCov P' C R' = _ from h2]
  exact covLe_add (covLe_conj _ h) (covLe_conj _ hr)

/-- A correction never increases the covariance. -/
theorem kCov_le {m : ℕ} {P : Mat n n} (hP : P.PosSemidef) (C : Mat m n) {R : Mat m m} (hR : R.PosDef) : CovLe (kCov P C R) P := by
  have := kCov_le_gain hP C hR 0
  simpa using this

/-! ### Steps -/

section steps
variable (A : Inp U → ℝ → Mat n n) (b : Inp U → ℝ → Vec n) (Q : Inp U → ℝ → Mat n n) (chi : ℕ → ℝ)

theorem linm_here {x : SWC (Vec n) n} {τ : ℝ} (u : Option (Inp U)) (y : LinM n) (hR : y.R.PosDef)
    (hx : x.state.stamp = some τ) (hP : x.cov.PosSemidef) (h1 : -(10 ^ 10 : ℝ) ≤ y.stamp - τ) (h2 : y.stamp - τ ≤ 1 / 10 ^ 11) :
    (linFilter A b Q chi).correct x y.obj.meas u none none = .ok (linPost y.C y.R y.value τ x) := by
  have hpsd := kCov_psd hP y.C hR
  unfold EkfEnv.correct
  rw [C06_no_predict (linFilter A b Q chi) x y.obj.meas u none none τ y.stamp hx rfl h1 h2]
  have hd : (innovCov x y.obj.meas none).det ≠ 0 := pd_det (innov_pd hP y.C hR)
  have hf := fuse_noreject (linFilter A b Q chi) x y.obj.meas none (y.C *ᵥ x.state.value) rfl hd
  show ((linFilter A b Q chi).fuse x y.obj.meas none false).map Prod.fst = _
  rw [hf]
  show Except.ok _ = Except.ok _
  congr 1
  obtain ⟨⟨w, s'⟩, P⟩ := x
  simp only at hx
  subst hx
  exact congrArg (SWC.mk _) (symmetrize_eq (psd_symm hpsd))

theorem linm_later {x : SWC (Vec n) n} {τ : ℝ} (u : StInp U) (y : LinM n) (hR : y.R.PosDef)
    (hx : x.state.stamp = some τ) (hP : x.cov.PosSemidef)
    (hQ : (Q ⟨u.value, some u.stamp⟩ (y.stamp - τ)).PosSemidef) (hlt : y.stamp - τ > 1 / 10 ^ 11) :
    (linFilter A b Q chi).correct x y.obj.meas (some ⟨u.value, some u.stamp⟩) none none
      = .ok (linPost y.C y.R y.value y.stamp (linPred A b Q ⟨u.value, some u.stamp⟩ τ y.stamp x)) := by
  have h0 : (0 : ℝ) < 1 / 10 ^ 11 := by positivity
  have hp := psd_step_predict A b Q chi u hx (by linarith : τ ≤ y.stamp) hP hQ
  unfold predictTo at hp
  rw [show (ekfApi (linFilter A b Q chi)).xstamp x = some τ from hx] at hp
  rw [C02_correct_eq_predict_then_correct (linFilter A b Q chi) x y.obj.meas _ none none τ y.stamp hx rfl hlt]
  have hp' : (linFilter A b Q chi).predict x (some ⟨u.value, some u.stamp⟩) (some (y.stamp - τ)) none
      = .ok (linPred A b Q ⟨u.value, some u.stamp⟩ τ y.stamp x) := hp
  rw [hp']
  exact linm_here A b Q chi none y hR rfl (psd_add (psd_conj hP _) hQ) (by rw [sub_self]; norm_num)
    (by rw [sub_self]; positivity)

end steps

theorem correct_stale {V : Type} (e : EkfEnv V U n) {x : SWC V n} {y : Meas V n} (u : Option (Inp U)) (xjac : Option (St V))
    (rej : Option Bool) {tx ty : ℝ} (hx : x.state.stamp = some tx) (hy : y.stamp = some ty) (h : ty - tx < -(10 ^ 10 : ℝ)) :
    e.correct x y u xjac rej = .error .runtimeError := by
  have ha : e.advance x y u = .error .runtimeError := by
    unfold EkfEnv.advance
    simp only [hx, hy]
    rw [if_pos h]
  unfold EkfEnv.correct EkfEnv.correctD
  rw [ha]
  rfl

/-! ### Same stamps: monotone in every covariance -/

/-- Related estimates: same stamp, and the first has at most the covariance of the second. -/
def BetterAt (x x' : SWC (Vec n) n) : Prop :=
  x.state.stamp = x'.state.stamp ∧ (∃ t, x.state.stamp = some t) ∧ x.cov.PosSemidef ∧ CovLe x.cov x'.cov

theorem LessNoisy.facts {y y' : LinM n} (h : LessNoisy y y') : y'.stamp = y.stamp ∧ y.R.PosDef ∧ y'.R.PosDef ∧
    ∀ P P' : Mat n n, P.PosSemidef → CovLe P P' → CovLe (kCov P y.C y.R) (kCov P' y'.C y'.R) := by
  cases h with
  | mk C R R' v v' s hR hr => exact ⟨rfl, hR, covLe_pd hR hr, fun P P' hP hPP => kCov_mono hP hPP C hR hr⟩

theorem betterAt_post {x x' : SWC (Vec n) n} {t : ℝ} (h1 : x.state.stamp = some t) (h2 : x'.state.stamp = some t)
    (h3 : x.cov.PosSemidef) (h4 : CovLe x.cov x'.cov) : ExRel BetterAt (.ok x) (.ok x') :=
  ⟨h1.trans h2.symm, ⟨t, h1⟩, h3, h4⟩

section sim
variable (A : Inp U → ℝ → Mat n n) (b b' : Inp U → ℝ → Vec n) (Q Q' : Inp U → ℝ → Mat n n) (chi chi' : ℕ → ℝ)
  (hQ : ∀ u dt, 0 ≤ dt → (Q u dt).PosSemidef) (hQQ : ∀ u dt, 0 ≤ dt → CovLe (Q u dt) (Q' u dt))
include hQ hQQ

theorem better_predict {x x' : SWC (Vec n) n} (u : StInp U) (dt : ℝ) (h : BetterAt x x') :
    ExRel BetterAt ((linFilter A b Q chi).predict x (some ⟨u.value, some u.stamp⟩) (some dt) none)
      ((linFilter A b' Q' chi').predict x' (some ⟨u.value, some u.stamp⟩) (some dt) none) := by
  obtain ⟨h1, ⟨t, ht⟩, h3, h4⟩ := h
  have ht' : x'.state.stamp = some t := h1 ▸ ht
  by_cases hd : 0 ≤ dt
  · have hq := hQ ⟨u.value, some u.stamp⟩ dt hd
    have hqq := hQQ ⟨u.value, some u.stamp⟩ dt hd
    have e1 := psd_step_predict A b Q chi u ht (by linarith : t ≤ t + dt) h3 (by rwa [add_sub_cancel_left])
    have e2 := psd_step_predict A b' Q' chi' u ht' (by linarith : t ≤ t + dt) (covLe_psd h3 h4)
      (by rw [add_sub_cancel_left]; exact covLe_psd hq hqq)
    unfold predictTo at e1 e2
    rw [show (ekfApi (linFilter A b Q chi)).xstamp x = some t from ht] at e1
    rw [show (ekfApi (linFilter A b' Q' chi')).xstamp x' = some t from ht'] at e2
    simp only [add_sub_cancel_left] at e1 e2
    rw [show (linFilter A b Q chi).predict x (some ⟨u.value, some u.stamp⟩) (some dt) none = _ from e1,
      show (linFilter A b' Q' chi').predict x' (some ⟨u.value, some u.stamp⟩) (some dt) none = _ from e2]
    refine ⟨rfl, ⟨_, rfl⟩, ?_, ?_⟩
    · simp only [linPred, add_sub_cancel_left]
      exact psd_add (psd_conj h3 _) hq
    · simp only [linPred, add_sub_cancel_left]
      exact covLe_add (covLe_conj _ h4) hqq
  · have e1 : (linFilter A b Q chi).predict x (some ⟨u.value, some u.stamp⟩) (some dt) none = .error .runtimeError :=
      (C05_predict_runtimeError _ _ _ _ _).2 ⟨t, dt, by simp [baseTime, ht], by simp [IsInterval], not_le.1 hd⟩
    have e2 : (linFilter A b' Q' chi').predict x' (some ⟨u.value, some u.stamp⟩) (some dt) none = .error .runtimeError :=
      (C05_predict_runtimeError _ _ _ _ _).2 ⟨t, dt, by simp [baseTime, ht'], by simp [IsInterval], not_le.1 hd⟩
    rw [e1, e2]
    exact rfl

theorem better_correct {x x' : SWC (Vec n) n} (u : StInp U) {y y' : LinM n} (hx : BetterAt x x') (h : LessNoisy y y') :
    ExRel BetterAt ((linFilter A b Q chi).correct x y.obj.meas (some ⟨u.value, some u.stamp⟩) none none)
      ((linFilter A b' Q' chi').correct x' y'.obj.meas (some ⟨u.value, some u.stamp⟩) none none) := by
  obtain ⟨h1, ⟨t, ht⟩, h3, h4⟩ := hx
  obtain ⟨hs, hR, hR', hmono⟩ := h.facts
  have ht' : x'.state.stamp = some t := h1 ▸ ht
  have h4' := covLe_psd h3 h4
  by_cases hl : y.stamp - t > 1 / 10 ^ 11
  · have hd : 0 ≤ y.stamp - t := le_trans (by positivity) hl.le
    have hq := hQ ⟨u.value, some u.stamp⟩ (y.stamp - t) hd
    have hqq := hQQ ⟨u.value, some u.stamp⟩ (y.stamp - t) hd
    rw [linm_later A b Q chi u y hR ht h3 hq hl,
      linm_later A b' Q' chi' u y' hR' ht' h4' (by rw [hs]; exact covLe_psd hq hqq) (by rw [hs]; exact hl)]
    have hp := psd_add (psd_conj h3 (A ⟨u.value, some u.stamp⟩ (y.stamp - t))) hq
    refine betterAt_post (t := y.stamp) rfl (by rw [hs]; rfl) (kCov_psd hp y.C hR) ?_
    rw [hs]
    exact hmono _ _ hp (covLe_add (covLe_conj _ h4) hqq)
  · by_cases hlo : y.stamp - t < -(10 ^ 10 : ℝ)
    · rw [correct_stale (linFilter A b Q chi) (some ⟨u.value, some u.stamp⟩) none none ht (ty := y.stamp) rfl hlo,
        correct_stale (linFilter A b' Q' chi') (some ⟨u.value, some u.stamp⟩) none none ht' (ty := y'.stamp) rfl (by rw [hs]; exact hlo)]
      exact rfl
    · rw [linm_here A b Q chi _ y hR ht h3 (not_lt.1 hlo) (not_lt.1 hl),
        linm_here A b' Q' chi' _ y' hR' ht' h4' (by rw [hs]; exact not_lt.1 hlo) (by rw [hs]; exact not_lt.1 hl)]
      exact betterAt_post (t := t) rfl rfl (kCov_psd h3 y.C hR) (hmono _ _ h3 h4)

theorem better_sim :
    FilterSim (ekfApi (linFilter A b Q chi)) (ekfApi (linFilter A b' Q' chi')) 0 BetterAt Eq
      (fun y y' => ∃ l l' : LinM n, y = l.obj ∧ y' = l'.obj ∧ LessNoisy l l') where
  xstamp x x' h := by
    show x'.state.stamp = x.state.stamp.map (· + 0)
    rw [← h.1]
    cases x.state.stamp <;> simp
  istamp := by rintro u _ rfl; exact (add_zero _).symm
  ystamp := by
    rintro _ _ ⟨l, l', rfl, rfl, h⟩
    have : l'.stamp = l.stamp := by cases h; rfl
    show l'.stamp = l.stamp + 0
    rw [this, add_zero]
  predict x x' u u' dt hx hu := hu ▸ better_predict A b b' Q Q' chi chi' hQ hQQ u dt hx
  correct := by
    rintro x x' u _ _ _ hx rfl ⟨_, _, rfl, rfl, h⟩
    exact better_correct A b b' Q Q' chi chi' hQ hQQ u hx h

end sim

/-- **C112 (monotone).** Two runs on the same stamps, with the same dynamics and the same quantities measured. If the first starts
with at most the covariance of the second, its process noise and the noise of every measurement are at most those of the second, then
every estimate it reports has at most the covariance of the corresponding one. (The offsets `b`, the initial states, the values of the
measurements are arbitrary.) -/
theorem C112_monotone (A : Inp U → ℝ → Mat n n) (b b' : Inp U → ℝ → Vec n) (Q Q' : Inp U → ℝ → Mat n n) (chi chi' : ℕ → ℝ)
    (hQ : ∀ u dt, 0 ≤ dt → (Q u dt).PosSemidef) (hQQ : ∀ u dt, 0 ≤ dt → CovLe (Q u dt) (Q' u dt)) (x0 x0' : Vec n) (t0 : ℝ)
    (P0 P0' : Mat n n) (hP : P0.PosSemidef) (hPP : CovLe P0 P0') (ins : List (StInp U)) (meas meas' : List (LinM n))
    (hm : List.Forall₂ LessNoisy meas meas') (rs : List (SWC (Vec n) n))
    (hrun : runFilter (ekfApi (linFilter A b Q chi)) ⟨⟨x0, some t0⟩, P0⟩ ins (meas.map LinM.obj) = .ok rs) :
    ∃ rs' : List (SWC (Vec n) n),
      runFilter (ekfApi (linFilter A b' Q' chi')) ⟨⟨x0', some t0⟩, P0'⟩ ins (meas'.map LinM.obj) = .ok rs' ∧
      List.Forall₂ (fun r r' => r.state.stamp = r'.state.stamp ∧ CovLe r.cov r'.cov) rs rs' := by
  have h := (better_sim A b b' Q Q' chi chi' hQ hQQ).runFilter (x0 := ⟨⟨x0, some t0⟩, P0⟩) (x0' := ⟨⟨x0', some t0⟩, P0'⟩)
    ⟨rfl, ⟨_, rfl⟩, hP, hPP⟩ (ins := ins) (ins' := ins) (List.forall₂_same.mpr fun _ _ => rfl) (meas := meas.map LinM.obj)
    (meas' := meas'.map LinM.obj) (by
      rw [List.forall₂_map_left_iff, List.forall₂_map_right_iff]
      exact hm.imp fun a b hab => ⟨a, b, rfl, rfl, hab⟩)
  rw [hrun] at h
  revert h
  cases e : runFilter (ekfApi (linFilter A b' Q' chi')) ⟨⟨x0', some t0⟩, P0'⟩ ins (meas'.map LinM.obj) with
  | ok rs' =>
    intro h
    exact ⟨rs', rfl, List.Forall₂.imp (fun a b hab => ⟨hab.1, hab.2.2.2⟩) h⟩
  | error e' =>
    intro h
    exact h.elim

/-- **C112 (values).** The covariances can be computed in advance: they do not depend on the initial state, on the offsets `b` of the
dynamics, or on the values measured. -/
theorem C112_values (A : Inp U → ℝ → Mat n n) (b b' : Inp U → ℝ → Vec n) (Q : Inp U → ℝ → Mat n n) (chi chi' : ℕ → ℝ)
    (hQ : ∀ u dt, 0 ≤ dt → (Q u dt).PosSemidef) (x0 x0' : Vec n) (t0 : ℝ) (P0 : Mat n n) (hP : P0.PosSemidef)
    (ins : List (StInp U)) (meas : List (LinM n)) (hR : ∀ y ∈ meas, y.R.PosDef) (v : (y : LinM n) → Vec y.m)
    (rs : List (SWC (Vec n) n))
    (hrun : runFilter (ekfApi (linFilter A b Q chi)) ⟨⟨x0, some t0⟩, P0⟩ ins (meas.map LinM.obj) = .ok rs) :
    ∃ rs' : List (SWC (Vec n) n),
      runFilter (ekfApi (linFilter A b' Q chi')) ⟨⟨x0', some t0⟩, P0⟩ ins
        (meas.map fun y => (⟨y.m, y.C, y.R, v y, y.stamp⟩ : LinM n).obj) = .ok rs' ∧
      rs'.map (fun r => (r.state.stamp, r.cov)) = rs.map (fun r => (r.state.stamp, r.cov)) := by
  have hf : List.Forall₂ LessNoisy meas (meas.map fun y => (⟨y.m, y.C, y.R, v y, y.stamp⟩ : LinM n)) := by
    rw [List.forall₂_map_right_iff]
    exact List.forall₂_same.mpr fun y hy => LessNoisy.mk y.C y.R y.R y.value (v y) y.stamp (hR y hy) (covLe_refl _)
  have hb : List.Forall₂ LessNoisy (meas.map fun y => (⟨y.m, y.C, y.R, v y, y.stamp⟩ : LinM n)) meas := by
    rw [List.forall₂_map_left_iff]
    exact List.forall₂_same.mpr fun y hy => LessNoisy.mk y.C y.R y.R (v y) y.value y.stamp (hR y hy) (covLe_refl _)
  obtain ⟨rs', h1, h2⟩ := C112_monotone A b b' Q Q chi chi' hQ (fun u dt _ => covLe_refl _) x0 x0' t0 P0 P0 hP (covLe_refl _) ins
    meas _ hf rs hrun
  obtain ⟨rs'', h3, h4⟩ := C112_monotone A b' b Q Q chi' chi hQ (fun u dt _ => covLe_refl _) x0' x0 t0 P0 P0 hP (covLe_refl _) ins
    _ meas hb rs' h1
  rw [hrun] at h3
  cases h3
  refine ⟨rs', by rw [List.map_map] at h1; exact h1, ?_⟩
  clear h1 hrun
  induction h2 with
  | nil => rfl
  | cons hab _ ih =>
    cases h4 with
    | cons hba h4 =>
    simp only [List.map_cons]
    rw [ih h4, hab.1, covLe_antisymm hab.2 hba.2]

/-! ### Additional measurements -/

/-- The second log is what remains of the first when some measurements are left out and some of the others get more noise (and other
values). -/
def Richer (meas meas' : List (LinM n)) : Prop :=
  (∀ y ∈ meas, y.R.PosDef) ∧ ∃ mid : List (LinM n), mid.Sublist meas ∧ List.Forall₂ LessNoisy mid meas'

/-- Linear dynamics that compose over time, and process noise of which two short steps do not bring more than one long step (equal for
noise sampled from a differential equation). -/
structure LinFlow (A Q : Inp U → ℝ → Mat n n) : Prop where
  A_zero : ∀ u, A u 0 = 1
  Q_zero : ∀ u, Q u 0 = 0
  A_add : ∀ u s t, 0 ≤ s → 0 ≤ t → A u (s + t) = A u t * A u s
  Q_add : ∀ u s t, 0 ≤ s → 0 ≤ t → CovLe (A u t * Q u s * (A u t)ᵀ + Q u t) (Q u (s + t))

section sorting
variable {α : Type} (stamp : α → ℝ)

open Classical in
theorem sort_filter_at (l : List α) (t : ℝ) :
    (sortByStamp stamp l).filter (fun a => decide (stamp a = t)) = l.filter (fun a => decide (stamp a = t)) := by
  have hs : (l.filter fun a => decide (stamp a = t)).Sublist (sortByStamp stamp l) := by
    refine sortByStamp_stable stamp l _ ?_ List.filter_sublist
    unfold TimeSorted
    rw [List.pairwise_iff_forall_sublist]
    intro a b hab
    have ha := List.mem_filter.1 (hab.subset (by simp : a ∈ [a, b]))
    have hb := List.mem_filter.1 (hab.subset (by simp : b ∈ [a, b]))
    simp only [decide_eq_true_eq] at ha hb
    linarith [ha.2, hb.2]
  have h2 := hs.filter (fun a => decide (stamp a = t))
  rw [List.filter_filter] at h2
  simp only [Bool.and_self] at h2
  exact (h2.eq_of_length ((((sortByStamp_perm stamp l).filter _).length_eq).symm)).symm

open Classical in
theorem sorted_sublist : ∀ (l l' : List α), TimeSorted stamp l → TimeSorted stamp l' →
    (∀ t, (l'.filter (fun a => decide (stamp a = t))).Sublist (l.filter (fun a => decide (stamp a = t)))) → l'.Sublist l
  | [], l', _, _, h => by
    cases l' with
    | nil => exact .slnil
    | cons a l' =>
      have := h (stamp a)
      simp at this
  | b :: l, [], _, _, h => List.nil_sublist _
  | b :: l, a :: l', hb, ha, h => by
    have hb' := List.pairwise_cons.1 hb
    have ha' := List.pairwise_cons.1 ha
    have hle : stamp b ≤ stamp a := by
      have hm : a ∈ (b :: l).filter (fun c => decide (stamp c = stamp a)) := (h (stamp a)).subset (by simp)
      rcases List.mem_cons.1 (List.mem_filter.1 hm).1 with rfl | hm
      · exact le_rfl
      · exact hb'.1 a hm
    have other : ∀ t, t ≠ stamp b → (l.filter fun c => decide (stamp c = t)) = (b :: l).filter fun c => decide (stamp c = t) := by
      intro t ht
      rw [List.filter_cons_of_neg]
      simpa using fun e => ht e.symm
    have here : ((b :: l).filter fun c => decide (stamp c = stamp b)) = b :: l.filter fun c => decide (stamp c = stamp b) := by
      rw [List.filter_cons_of_pos]; simp
    rcases hle.lt_or_eq with hlt | heq
    · refine (sorted_sublist l (a :: l') hb'.2 ha fun t => ?_).cons b
      by_cases ht : t = stamp b
      · have : ((a :: l').filter fun c => decide (stamp c = t)) = [] := by
          rw [List.filter_eq_nil_iff]
          intro c hc
          have : stamp a ≤ stamp c := by
            rcases List.mem_cons.1 hc with rfl | hc
            · exact le_rfl
            · exact ha'.1 c hc
          simp only [decide_eq_true_eq]
          intro e
          linarith
        rw [this]
        exact List.nil_sublist _
      · rw [other t ht]
        exact h t
    · have h0 := h (stamp b)
      have here' : ((a :: l').filter fun c => decide (stamp c = stamp b)) = a :: l'.filter fun c => decide (stamp c = stamp b) := by
        rw [List.filter_cons_of_pos]; simp [heq]
      rw [here, here'] at h0
      by_cases hab : (a :: l'.filter fun c => decide (stamp c = stamp b)).Sublist (l.filter fun c => decide (stamp c = stamp b))
      · refine (sorted_sublist l (a :: l') hb'.2 ha fun t => ?_).cons b
        by_cases ht : t = stamp b
        · rw [ht, here']
          exact hab
        · rw [other t ht]
          exact h t
      · cases h0 with
        | cons _ h0 => exact (hab h0).elim
        | cons_cons _ h0 =>
          refine (sorted_sublist l l' hb'.2 ha'.2 fun t => ?_).cons_cons b
          by_cases ht : t = stamp b
          · rw [ht]
            exact h0
          · have := h t
            rw [← other t ht, List.filter_cons_of_neg (by simpa using fun e => ht e.symm)] at this
            exact this

/-- Sorting a part of a list gives a part of the sorted list. -/
theorem sort_sublist {l l' : List α} (h : l'.Sublist l) : (sortByStamp stamp l').Sublist (sortByStamp stamp l) := by
  classical
  refine sorted_sublist stamp _ _ (sortByStamp_sorted stamp l) (sortByStamp_sorted stamp l') fun t => ?_
  rw [sort_filter_at, sort_filter_at]
  exact h.filter _

end sorting

section run
variable {A : Inp U → ℝ → Mat n n} {b b' : Inp U → ℝ → Vec n} {Q Q' : Inp U → ℝ → Mat n n} {chi chi' : ℕ → ℝ}

/-- The covariance predicted over `d`. -/
def prCov (A Q : Inp U → ℝ → Mat n n) (u : Inp U) (d : ℝ) (P : Mat n n) : Mat n n := A u d * P * (A u d)ᵀ + Q u d

theorem prCov_zero (h : LinFlow A Q) (u : Inp U) (P : Mat n n) : prCov A Q u 0 P = P := by
  unfold prCov
  rw [h.A_zero, h.Q_zero]
  simp

theorem prCov_add (h : LinFlow A Q) (u : Inp U) {s t : ℝ} (hs : 0 ≤ s) (ht : 0 ≤ t) (P : Mat n n) :
    CovLe (prCov A Q u t (prCov A Q u s P)) (prCov A Q u (s + t) P) := by
  unfold prCov
  have e : A u t * (A u s * P * (A u s)ᵀ + Q u s) * (A u t)ᵀ + Q u t
      = A u t * A u s * P * (A u t * A u s)ᵀ + (A u t * Q u s * (A u t)ᵀ + Q u t) := by
    simp only [transpose_mul, Matrix.mul_add, Matrix.add_mul, Matrix.mul_assoc]
    abel
  rw [h.A_add u s t hs ht, e]
  exact covLe_add (covLe_refl _) (h.Q_add u s t hs ht)

theorem prCov_mono (u : Inp U) {d : ℝ} {P P' : Mat n n} (h : CovLe P P') (hq : CovLe (Q u d) (Q' u d)) :
    CovLe (prCov A Q u d P) (prCov A Q' u d P') := covLe_add (covLe_conj _ h) hq

theorem prCov_psd (u : Inp U) {d : ℝ} {P : Mat n n} (h : P.PosSemidef) (hq : (Q u d).PosSemidef) : (prCov A Q u d P).PosSemidef :=
  psd_add (psd_conj h _) hq

/-- The estimate `x'` at `τ'`, predicted to `τ`, has at least the covariance of `x` at `τ`. -/
structure Lead (A Q' : Inp U → ℝ → Mat n n) (u : Inp U) (x x' : SWC (Vec n) n) (τ τ' : ℝ) : Prop where
  stamp : x.state.stamp = some τ
  stamp' : x'.state.stamp = some τ'
  le : τ' ≤ τ
  psd : x.cov.PosSemidef
  psd' : x'.cov.PosSemidef
  cov : CovLe x.cov (prCov A Q' u (τ - τ') x'.cov)

/-- What the two models have to satisfy. -/
structure NoiseLe (A Q Q' : Inp U → ℝ → Mat n n) : Prop where
  psd : ∀ u dt, 0 ≤ dt → (Q u dt).PosSemidef
  le : ∀ u dt, 0 ≤ dt → CovLe (Q u dt) (Q' u dt)
  flow : LinFlow A Q'

theorem NoiseLe.psd' (h : NoiseLe A Q Q') (u : Inp U) {dt : ℝ} (hd : 0 ≤ dt) : (Q' u dt).PosSemidef :=
  covLe_psd (h.psd u dt hd) (h.le u dt hd)

theorem NoiseLe.zero (h : NoiseLe A Q Q') (u : Inp U) (P : Mat n n) : prCov A Q u 0 P = P := by
  have h1 : Q u 0 = 0 := by
    refine covLe_antisymm ?_ ?_
    · rw [← h.flow.Q_zero u]
      exact h.le u 0 le_rfl
    · unfold CovLe
      rw [sub_zero]
      exact h.psd u 0 le_rfl
  unfold prCov
  rw [h.flow.A_zero, h1]
  simp

/-- Going on to a later time keeps the lead. -/
theorem Lead.forward (h : NoiseLe A Q Q') {u : Inp U} {x x' : SWC (Vec n) n} {τ τ' : ℝ} (hl : Lead A Q' u x x' τ τ') {s : ℝ}
    (hs : τ ≤ s) : CovLe (prCov A Q u (s - τ) x.cov) (prCov A Q' u (s - τ') x'.cov) := by
  have e : s - τ' = (τ - τ') + (s - τ) := by ring
  rw [e]
  refine covLe_trans ?_ (prCov_add h.flow u (sub_nonneg.2 hl.le) (sub_nonneg.2 hs) _)
  exact prCov_mono u hl.cov (h.le u _ (sub_nonneg.2 hs))

/-- `correct` on a linear measurement at a time equal to that of the estimate, or later. -/
theorem linm_correct (hz : ∀ u P, prCov A Q u 0 P = P) (hQ : ∀ u dt, 0 ≤ dt → (Q u dt).PosSemidef) {x : SWC (Vec n) n} {τ : ℝ}
    (u : StInp U) (y : LinM n) (hR : y.R.PosDef) (hx : x.state.stamp = some τ) (hP : x.cov.PosSemidef) (hle : τ ≤ y.stamp)
    (hd : Distinguishable y.stamp τ) :
    ∃ x1, (ekfApi (linFilter A b Q chi)).correct x y.obj u = .ok x1 ∧ x1.state.stamp = some y.stamp ∧
      x1.cov = kCov (prCov A Q ⟨u.value, some u.stamp⟩ (y.stamp - τ) x.cov) y.C y.R := by
  rcases far hd hle with he | hlt
  · refine ⟨_, linm_here A b Q chi _ y hR hx hP (by rw [he, sub_self]; norm_num) (by rw [he, sub_self]; positivity), ?_, ?_⟩
    · rw [he]; rfl
    · rw [he, sub_self, hz]
      rfl
  · exact ⟨_, linm_later A b Q chi u y hR hx hP (hQ _ _ (sub_nonneg.2 hle)) hlt, rfl, rfl⟩

theorem fuse_stop {f : FilterApi (SWC (Vec n) n) (StInp U) (StMeas (Vec n) n)} (hf : ∀ y, f.ystamp y = y.stamp) (u : StInp U) (tn : ℝ)
    (l : List (LinM n)) (h : ∀ y ∈ l, tn ≤ y.stamp) (x : SWC (Vec n) n) :
    fuseWhile f u tn (l.map LinM.obj) x = .ok (x, l.map LinM.obj) := by
  cases l with
  | nil => rfl
  | cons y l =>
    refine if_neg ?_
    rw [hf]
    exact not_lt.2 (h y (by simp))

theorem fuse_go {f : FilterApi (SWC (Vec n) n) (StInp U) (StMeas (Vec n) n)} (hf : ∀ y, f.ystamp y = y.stamp) (u : StInp U) (tn : ℝ)
    (y : LinM n) (l : List (LinM n)) (h : y.stamp < tn) (x x1 : SWC (Vec n) n) (hx : f.correct x y.obj u = .ok x1) :
    fuseWhile f u tn ((y :: l).map LinM.obj) x = fuseWhile f u tn (l.map LinM.obj) x1 := by
  have e : fuseWhile f u tn ((y :: l).map LinM.obj) x
      = (f.correct x y.obj u >>= fun x1 => fuseWhile f u tn (l.map LinM.obj) x1) :=
    if_pos (by rw [hf]; exact h)
  rw [e, hx]
  rfl

theorem lessNoisy_mem {mid l' : List (LinM n)} (h : List.Forall₂ LessNoisy mid l') : ∀ y' ∈ l', ∃ y ∈ mid, y'.stamp = y.stamp := by
  induction h with
  | nil => simp
  | cons hab _ ih =>
    intro y' hy'
    rcases List.mem_cons.1 hy' with rfl | hy'
    · exact ⟨_, by simp, hab.facts.1⟩
    · obtain ⟨y, hy, e⟩ := ih y' hy'
      exact ⟨y, by simp [hy], e⟩

theorem lead_fuse (h : NoiseLe A Q Q') (u : StInp U) (tn : ℝ) (S : List ℝ) {l mid : List (LinM n)} (hsub : mid.Sublist l) :
    ∀ (l' : List (LinM n)), List.Forall₂ LessNoisy mid l' → TimeSorted LinM.stamp l → (∀ y ∈ l, y.R.PosDef) →
      (∀ y ∈ l, y.stamp ∈ S ∧ ∀ s ∈ S, Distinguishable y.stamp s) →
      ∀ (x x' : SWC (Vec n) n) (τ τ' : ℝ), Lead A Q' ⟨u.value, some u.stamp⟩ x x' τ τ' → τ ≤ tn → (∀ y ∈ l, τ ≤ y.stamp) →
        τ ∈ S → τ' ∈ S →
      ∃ (x1 x1' : SWC (Vec n) n) (l1 mid1 l1' : List (LinM n)) (τ1 τ1' : ℝ),
        fuseWhile (ekfApi (linFilter A b Q chi)) u tn (l.map LinM.obj) x = .ok (x1, l1.map LinM.obj) ∧
        fuseWhile (ekfApi (linFilter A b' Q' chi')) u tn (l'.map LinM.obj) x' = .ok (x1', l1'.map LinM.obj) ∧
        Lead A Q' ⟨u.value, some u.stamp⟩ x1 x1' τ1 τ1' ∧ τ1 ≤ tn ∧ mid1.Sublist l1 ∧ List.Forall₂ LessNoisy mid1 l1' ∧ l1 <:+ l ∧
        ∀ y ∈ l1, tn ≤ y.stamp := by
  induction hsub with
  | slnil =>
    intro l' hf hs hR hD x x' τ τ' hL ht hy _ _
    cases hf
    exact ⟨x, x', [], [], [], τ, τ', rfl, rfl, hL, ht, .slnil, .nil, List.suffix_refl _, by simp⟩
  | @cons mid l y hsub ih =>
    intro l' hf hs hR hD x x' τ τ' hL ht hy hτ hτ'
    have hs' := List.pairwise_cons.1 hs
    by_cases hlt : y.stamp < tn
    · have hge : τ ≤ y.stamp := hy y (by simp)
      have hq := h.psd ⟨u.value, some u.stamp⟩ (y.stamp - τ) (sub_nonneg.2 hge)
      obtain ⟨x1, e1, e2, e3⟩ := linm_correct (b := b) (chi := chi) h.zero h.psd u y (hR y (by simp)) hL.stamp hL.psd hge
        ((hD y (by simp)).2 τ hτ)
      have hp := prCov_psd (A := A) ⟨u.value, some u.stamp⟩ hL.psd hq
      have hL1 : Lead A Q' ⟨u.value, some u.stamp⟩ x1 x' y.stamp τ' := by
        refine ⟨e2, hL.stamp', hL.le.trans hge, ?_, hL.psd', ?_⟩
        · rw [e3]; exact kCov_psd hp y.C (hR y (by simp))
        · rw [e3]
          exact covLe_trans (kCov_le hp y.C (hR y (by simp))) (hL.forward h hge)
      obtain ⟨a1, a2, a3, a4, a5, a6, a7, b1, b2, b3, b4, b5, b6, b7, b8⟩ := ih l' hf hs'.2 (fun z hz => hR z (by simp [hz]))
        (fun z hz => hD z (by simp [hz])) x1 x' y.stamp τ' hL1 hlt.le hs'.1 (hD y (by simp)).1 hτ'
      exact ⟨a1, a2, a3, a4, a5, a6, a7, by rw [fuse_go (fun _ => rfl) u tn y l hlt x x1 e1]; exact b1, b2, b3, b4, b5, b6,
        b7.trans (List.suffix_cons _ _), b8⟩
    · have hall : ∀ z ∈ y :: l, tn ≤ z.stamp := by
        intro z hz
        rcases List.mem_cons.1 hz with rfl | hz
        · exact not_lt.1 hlt
        · exact (not_lt.1 hlt).trans (hs'.1 z hz)
      refine ⟨x, x', y :: l, mid, l', τ, τ', fuse_stop (fun _ => rfl) u tn _ hall x, fuse_stop (fun _ => rfl) u tn _ ?_ x', hL, ht,
        hsub.cons y, hf, List.suffix_refl _, hall⟩
      intro z hz
      obtain ⟨w, hw, e⟩ := lessNoisy_mem hf z hz
      rw [e]
      exact hall w (List.mem_cons_of_mem _ (hsub.subset hw))
  | @cons_cons mid l y hsub ih =>
    intro l' hf hs hR hD x x' τ τ' hL ht hy hτ hτ'
    have hs' := List.pairwise_cons.1 hs
    cases hf with
    | @cons _ y' _ l' hyy hf =>
    obtain ⟨hst, hRy, hRy', hmono⟩ := hyy.facts
    by_cases hlt : y.stamp < tn
    · have hge : τ ≤ y.stamp := hy y (by simp)
      have hge' : τ' ≤ y.stamp := hL.le.trans hge
      have hq := h.psd ⟨u.value, some u.stamp⟩ (y.stamp - τ) (sub_nonneg.2 hge)
      have hq' := h.psd' ⟨u.value, some u.stamp⟩ (sub_nonneg.2 hge')
      obtain ⟨x1, e1, e2, e3⟩ := linm_correct (b := b) (chi := chi) h.zero h.psd u y hRy hL.stamp hL.psd hge
        ((hD y (by simp)).2 τ hτ)
      obtain ⟨x1', e1', e2', e3'⟩ := linm_correct (b := b') (chi := chi') (prCov_zero h.flow) (fun v d hd => h.psd' v hd) u y' hRy'
        hL.stamp' hL.psd' (by rw [hst]; exact hge') (by rw [hst]; exact (hD y (by simp)).2 τ' hτ')
      have hp := prCov_psd (A := A) ⟨u.value, some u.stamp⟩ hL.psd hq
      have hp' := prCov_psd (A := A) ⟨u.value, some u.stamp⟩ hL.psd' hq'
      rw [hst] at e2' e3'
      have hL1 : Lead A Q' ⟨u.value, some u.stamp⟩ x1 x1' y.stamp y.stamp := by
        refine ⟨e2, e2', le_rfl, ?_, ?_, ?_⟩
        · rw [e3]; exact kCov_psd hp y.C hRy
        · rw [e3']; exact kCov_psd hp' y'.C hRy'
        · rw [sub_self, prCov_zero h.flow, e3, e3']
          exact hmono _ _ hp (hL.forward h hge)
      obtain ⟨a1, a2, a3, a4, a5, a6, a7, b1, b2, b3, b4, b5, b6, b7, b8⟩ := ih l' hf hs'.2 (fun z hz => hR z (by simp [hz]))
        (fun z hz => hD z (by simp [hz])) x1 x1' y.stamp y.stamp hL1 hlt.le hs'.1 (hD y (by simp)).1 (hD y (by simp)).1
      refine ⟨a1, a2, a3, a4, a5, a6, a7, ?_, ?_, b3, b4, b5, b6, b7.trans (List.suffix_cons _ _), b8⟩
      · rw [fuse_go (fun _ => rfl) u tn y l hlt x x1 e1]; exact b1
      · rw [fuse_go (fun _ => rfl) u tn y' l' (by rw [hst]; exact hlt) x' x1' e1']; exact b2
    · have hall : ∀ z ∈ y :: l, tn ≤ z.stamp := by
        intro z hz
        rcases List.mem_cons.1 hz with rfl | hz
        · exact not_lt.1 hlt
        · exact (not_lt.1 hlt).trans (hs'.1 z hz)
      refine ⟨x, x', y :: l, y :: mid, y' :: l', τ, τ', fuse_stop (fun _ => rfl) u tn _ hall x, fuse_stop (fun _ => rfl) u tn _ ?_ x', hL,
        ht, hsub.cons_cons y, .cons hyy hf, List.suffix_refl _, hall⟩
      intro z hz
      obtain ⟨w, hw, e⟩ := lessNoisy_mem (.cons hyy hf) z hz
      rw [e]
      exact hall w ((hsub.cons_cons y).subset hw)

theorem lead_loop (h : NoiseLe A Q Q') (S : List ℝ) :
    ∀ (us : List (StInp U)) (u : StInp U) (l mid l' : List (LinM n)) (x x' : SWC (Vec n) n) (τ : ℝ), mid.Sublist l →
      List.Forall₂ LessNoisy mid l' → TimeSorted LinM.stamp l → (∀ y ∈ l, y.R.PosDef) →
      (∀ y ∈ l, y.stamp ∈ S ∧ ∀ s ∈ S, Distinguishable y.stamp s) → (∀ v ∈ u :: us, v.stamp ∈ S) →
      TimeSorted StInp.stamp (u :: us) → Lead A Q' ⟨u.value, some u.stamp⟩ x x' τ τ → τ ≤ u.stamp → (∀ y ∈ l, τ ≤ y.stamp) → τ ∈ S →
      ∃ rs rs' : List (SWC (Vec n) n),
        runLoop (ekfApi (linFilter A b Q chi)) (u :: us) (l.map LinM.obj) x = .ok rs ∧
        runLoop (ekfApi (linFilter A b' Q' chi')) (u :: us) (l'.map LinM.obj) x' = .ok rs' ∧
        rs.length = us.length ∧ rs'.length = us.length ∧
        ∀ (k : ℕ) v r r', (u :: us)[k]? = some v → rs[k]? = some r → rs'[k]? = some r' →
          ∃ τ1 τ1', Lead A Q' ⟨v.value, some v.stamp⟩ r r' τ1 τ1'
  | [], u, l, mid, l', x, x', τ, _, _, _, _, _, _, _, _, _, _, _ => ⟨[], [], rfl, rfl, rfl, rfl, by simp⟩
  | u' :: us, u, l, mid, l', x, x', τ, hsub, hf, hs, hR, hD, hS, hi, hL, hu, hy, hτ => by
    have hi' := List.pairwise_cons.1 hi
    have hle : τ ≤ u'.stamp := hu.trans (hi'.1 u' (by simp))
    obtain ⟨x1, x1', l1, mid1, l1', τ1, τ1', b1, b2, b3, b4, b5, b6, b7, b8⟩ := lead_fuse (b := b) (b' := b') (chi := chi) (chi' := chi')
      h u u'.stamp S hsub l' hf hs hR hD x x' τ τ hL hle hy hτ hτ
    have hq := h.psd ⟨u.value, some u.stamp⟩ (u'.stamp - τ1) (sub_nonneg.2 b4)
    have hle' : τ1' ≤ u'.stamp := b3.le.trans b4
    have hq' := h.psd' ⟨u.value, some u.stamp⟩ (sub_nonneg.2 hle')
    have p1 := psd_step_predict A b Q chi u b3.stamp b4 b3.psd hq
    have p2 := psd_step_predict A b' Q' chi' u b3.stamp' hle' b3.psd' hq'
    have hL1 : Lead A Q' ⟨u'.value, some u'.stamp⟩ (linPred A b Q ⟨u.value, some u.stamp⟩ τ1 u'.stamp x1)
        (linPred A b' Q' ⟨u.value, some u.stamp⟩ τ1' u'.stamp x1') u'.stamp u'.stamp := by
      refine ⟨rfl, rfl, le_rfl, prCov_psd _ b3.psd hq, prCov_psd _ b3.psd' hq', ?_⟩
      rw [sub_self, prCov_zero h.flow]
      exact b3.forward h b4
    obtain ⟨rs, rs', c1, c2, c3, c4, c5⟩ := lead_loop h S us u' l1 mid1 l1' _ _ u'.stamp b5 b6 (hs.sublist b7.sublist)
      (fun y hy' => hR y (b7.subset hy')) (fun y hy' => hD y (b7.subset hy')) (fun v hv => hS v (List.mem_cons_of_mem _ hv)) hi'.2 hL1
      le_rfl b8 (hS u' (by simp))
    refine ⟨x1 :: rs, x1' :: rs', ?_, ?_, by simp [c3], by simp [c4], ?_⟩
    · unfold runLoop
      rw [show (ekfApi (linFilter A b Q chi)).istamp u' = u'.stamp from rfl, b1]
      show (predictTo _ x1 u u'.stamp >>= fun x2 => _) = _
      rw [p1]
      show (runLoop _ _ _ _ >>= fun rs => _) = _
      rw [c1]
      rfl
    · unfold runLoop
      rw [show (ekfApi (linFilter A b' Q' chi')).istamp u' = u'.stamp from rfl, b2]
      show (predictTo _ x1' u u'.stamp >>= fun x2 => _) = _
      rw [p2]
      show (runLoop _ _ _ _ >>= fun rs => _) = _
      rw [c2]
      rfl
    · intro k v r r' hv hr hr'
      cases k with
      | zero =>
        simp only [List.getElem?_cons_zero, Option.some.injEq] at hv hr hr'
        subst hv hr hr'
        exact ⟨τ1, τ1', b3⟩
      | succ k =>
        simp only [List.getElem?_cons_succ] at hv hr hr'
        exact c5 k v r r' hv hr hr'

theorem retained_obj (t0 : ℝ) (l : List (LinM n)) : retained StMeas.stamp t0 (l.map LinM.obj) = (retained LinM.stamp t0 l).map LinM.obj := by
  classical
  have e : sortByStamp StMeas.stamp (l.map LinM.obj) = (sortByStamp LinM.stamp l).map LinM.obj := by
    unfold sortByStamp
    rw [List.map_mergeSort (s := fun a b => decide (StMeas.stamp a ≤ StMeas.stamp b))]
    intro a _ b _; rfl
  unfold retained
  rw [e, List.filter_map]
  rfl

theorem retained_lessNoisy {t0 : ℝ} {l l' : List (LinM n)} (h : List.Forall₂ LessNoisy l l') :
    List.Forall₂ LessNoisy (retained LinM.stamp t0 l) (retained LinM.stamp t0 l') := by
  have hs := sort_forall2 (s := LinM.stamp) (s' := LinM.stamp) (T := 0) (R := LessNoisy)
    (fun u u' h => by rw [h.facts.1, add_zero]) h
  unfold retained
  revert hs
  generalize sortByStamp LinM.stamp l = a
  generalize sortByStamp LinM.stamp l' = c
  intro hs
  induction hs with
  | nil => exact .nil
  | cons hab _ ih =>
    simp only [List.filter_cons, hab.facts.1]
    split
    · exact .cons hab ih
    · exact ih

/-- **C112 (more data).** Add measurements to a log, anywhere, or reduce noise. If the dynamics compose over time and the process noise
of a long step is at least that of two short ones, then every estimate reported with more data is at least as late, and has at most the
covariance that the estimate reported with less data has when it is predicted to the same time. -/
theorem C112_more_data (hQ : ∀ u dt, 0 ≤ dt → (Q u dt).PosSemidef) (hQQ : ∀ u dt, 0 ≤ dt → CovLe (Q u dt) (Q' u dt))
    (hflow : LinFlow A Q') (x0 x0' : Vec n) (t0 : ℝ) (P0 P0' : Mat n n) (hP : P0.PosSemidef) (hPP : CovLe P0 P0')
    (ins : List (StInp U)) (meas meas' : List (LinM n)) (hm : Richer meas meas')
    (hi : ins = [] ∨ ∃ u ∈ ins, t0 ≤ u.stamp) (hf : meas = [] ∨ ∃ y ∈ meas, t0 ≤ y.stamp)
    (hf' : meas' = [] ∨ ∃ y ∈ meas', t0 ≤ y.stamp)
    (hD : ∀ y ∈ meas, ∀ s ∈ t0 :: (ins.map StInp.stamp ++ meas.map LinM.stamp), Distinguishable y.stamp s) :
    ∃ rs rs' : List (SWC (Vec n) n),
      runFilter (ekfApi (linFilter A b Q chi)) ⟨⟨x0, some t0⟩, P0⟩ ins (meas.map LinM.obj) = .ok rs ∧
      runFilter (ekfApi (linFilter A b' Q' chi')) ⟨⟨x0', some t0⟩, P0'⟩ ins (meas'.map LinM.obj) = .ok rs' ∧
      rs.length = rs'.length ∧
      ∀ (k : ℕ) u r r', (retained StInp.stamp t0 ins)[k]? = some u → rs[k]? = some r → rs'[k]? = some r' →
        ∃ τ τ' p, r.state.stamp = some τ ∧ r'.state.stamp = some τ' ∧ τ' ≤ τ ∧
          (linFilter A b' Q' chi').predict r' (some ⟨u.value, some u.stamp⟩) (some (τ - τ')) none = .ok p ∧
          p.state.stamp = some τ ∧ CovLe r.cov p.cov ∧ (τ' = τ → CovLe r.cov r'.cov) := by
  have h : NoiseLe A Q Q' := ⟨hQ, hQQ, hflow⟩
  obtain ⟨hR, mid, hsub, hall⟩ := hm
  have e1 : runFilter (ekfApi (linFilter A b Q chi)) ⟨⟨x0, some t0⟩, P0⟩ ins (meas.map LinM.obj)
      = runLoop (ekfApi (linFilter A b Q chi)) (retained StInp.stamp t0 ins) ((retained LinM.stamp t0 meas).map LinM.obj)
          ⟨⟨x0, some t0⟩, P0⟩ := by
    show runLoop _ (dropBefore StInp.stamp t0 (sortByStamp StInp.stamp ins)) (dropBefore StMeas.stamp t0 (sortByStamp StMeas.stamp _)) _ = _
    rw [dropBefore_fresh _ _ _ hi, dropBefore_fresh _ _ _ (by
      rcases hf with rfl | ⟨y, hy, ht⟩
      · exact .inl rfl
      · exact .inr ⟨y.obj, List.mem_map_of_mem hy, ht⟩), retained_obj]
  have e2 : runFilter (ekfApi (linFilter A b' Q' chi')) ⟨⟨x0', some t0⟩, P0'⟩ ins (meas'.map LinM.obj)
      = runLoop (ekfApi (linFilter A b' Q' chi')) (retained StInp.stamp t0 ins) ((retained LinM.stamp t0 meas').map LinM.obj)
          ⟨⟨x0', some t0⟩, P0'⟩ := by
    show runLoop _ (dropBefore StInp.stamp t0 (sortByStamp StInp.stamp ins)) (dropBefore StMeas.stamp t0 (sortByStamp StMeas.stamp _)) _ = _
    rw [dropBefore_fresh _ _ _ hi, dropBefore_fresh _ _ _ (by
      rcases hf' with rfl | ⟨y, hy, ht⟩
      · exact .inl rfl
      · exact .inr ⟨y.obj, List.mem_map_of_mem hy, ht⟩), retained_obj]
  rw [e1, e2]
  have hI : TimeSorted StInp.stamp (retained StInp.stamp t0 ins) := (sortByStamp_sorted _ _).filter _ _
  have hmI : ∀ u ∈ retained StInp.stamp t0 ins, u ∈ ins ∧ t0 ≤ u.stamp := by
    intro u hu
    have := List.mem_filter.1 hu
    exact ⟨(sortByStamp_mem _).1 this.1, by simpa using this.2⟩
  have hmY : ∀ y ∈ retained LinM.stamp t0 meas, y ∈ meas ∧ t0 ≤ y.stamp := by
    intro y hy
    have := List.mem_filter.1 hy
    exact ⟨(sortByStamp_mem _).1 this.1, by simpa using this.2⟩
  cases hr : retained StInp.stamp t0 ins with
  | nil => exact ⟨[], [], rfl, rfl, rfl, by simp⟩
  | cons u us =>
    rw [hr] at hI hmI
    obtain ⟨rs, rs', c1, c2, c3, c4, c5⟩ := lead_loop (b := b) (b' := b') (chi := chi) (chi' := chi') h
      (t0 :: (ins.map StInp.stamp ++ meas.map LinM.stamp)) us u (retained LinM.stamp t0 meas) (retained LinM.stamp t0 mid)
      (retained LinM.stamp t0 meas') ⟨⟨x0, some t0⟩, P0⟩ ⟨⟨x0', some t0⟩, P0'⟩ t0 ((sort_sublist _ hsub).filter _)
      (retained_lessNoisy hall) ((sortByStamp_sorted _ _).filter _ _) (fun y hy => hR y (hmY y hy).1)
      (fun y hy => ⟨by
        have := List.mem_map_of_mem (f := LinM.stamp) (hmY y hy).1
        simp only [List.mem_cons, List.mem_append]
        exact .inr (.inr this), hD y (hmY y hy).1⟩)
      (fun v hv => by
        have := List.mem_map_of_mem (f := StInp.stamp) (hmI v hv).1
        simp only [List.mem_cons, List.mem_append]
        exact .inr (.inl this)) hI
      ⟨rfl, rfl, le_rfl, hP, covLe_psd hP hPP, by rw [sub_self, prCov_zero h.flow]; exact hPP⟩ (hmI u (by simp)).2
      (fun y hy => (hmY y hy).2) (by simp)
    refine ⟨rs, rs', c1, c2, c3.trans c4.symm, fun k v r r' hv hr' hr'' => ?_⟩
    obtain ⟨τ, τ', hL⟩ := c5 k v r r' hv hr' hr''
    have hp := psd_step_predict A b' Q' chi' v hL.stamp' hL.le hL.psd' (h.psd' _ (sub_nonneg.2 hL.le))
    unfold predictTo at hp
    rw [show (ekfApi (linFilter A b' Q' chi')).xstamp r' = some τ' from hL.stamp'] at hp
    refine ⟨τ, τ', _, hL.stamp, hL.stamp', hL.le, hp, rfl, hL.cov, ?_⟩
    rintro rfl
    have := hL.cov
    rwa [sub_self, prCov_zero h.flow] at this

end run

/-! ### Models -/

/-- **C112 (sampled models).** Models discretized with `van_loans` are of the kind that C112 needs. -/
theorem C112_van_loan {k : ℕ} (A : Mat n n) (L : Mat n k) (Q : Mat k k) (hQ : Q.PosSemidef) :
    LinFlow (U := U) (fun _ dt => (vanLoans A L Q dt).1) (fun _ dt => (vanLoans A L Q dt).2) ∧
      ∀ dt, 0 ≤ dt → (vanLoans A L Q dt).2.PosSemidef :=
  ⟨⟨fun _ => (C51_zero A L Q).1, fun _ => (C51_zero A L Q).2, fun _ s t _ _ => (C51_compose A L Q s t).1, fun _ s t _ _ => by
      rw [(C51_compose A L Q s t).2]
      exact covLe_refl _⟩, fun dt hdt => C51_psd A L Q hQ dt hdt⟩

/-- **C112 (single integrator).** So is `SingleIntegrator`, although its noise does not add up over time. -/
theorem C112_single_integrator (Q : Mat n n) (hQ : Q.PosSemidef) :
    LinFlow (U := U) (fun _ _ => siJacobian n) (fun _ dt => siCovariance Q dt) ∧ ∀ dt, (siCovariance Q dt).PosSemidef := by
  refine ⟨⟨fun _ => rfl, fun _ => ?_, fun _ s t _ _ => ?_, fun _ s t hs ht => ?_⟩, fun dt => hQ.smul (sq_nonneg dt)⟩
  · simp [siCovariance]
  · simp [siJacobian]
  · unfold CovLe siCovariance siJacobian
    rw [transpose_one, Matrix.one_mul, Matrix.mul_one, ← add_smul, ← sub_smul]
    refine hQ.smul ?_
    nlinarith [mul_nonneg hs ht]

theorem kCov_blind {m : ℕ} (P : Mat n n) (R : Mat m m) : kCov P (0 : Mat m n) R = P := by
  simp [kCov]

/-- Three inputs, at 0, 2 and 3. -/
def inputs023 : List (StInp Unit) := [⟨(), 0⟩, ⟨(), 2⟩, ⟨(), 3⟩]

/-- A measurement at 1 that says nothing about the state. -/
def blind (n : ℕ) : LinM n := ⟨1, 0, 1, 0, 1⟩

theorem retained023 : retained StInp.stamp 0 inputs023 = inputs023 := by
  unfold retained inputs023
  rw [sortByStamp_of_sorted _ _ (by simp [TimeSorted]; norm_num)]
  simp

theorem retained_blind : retained LinM.stamp 0 [blind n] = [blind n] := by
  unfold retained blind
  rw [sortByStamp_of_sorted _ _ (by simp [TimeSorted])]
  simp

section blindRuns
variable (A : Inp Unit → ℝ → Mat n n) (b : Inp Unit → ℝ → Vec n) (Q : Inp Unit → ℝ → Mat n n) (chi : ℕ → ℝ) (x0 : Vec n) (P0 : Mat n n)

theorem run_without (hQ : ∀ u dt, 0 ≤ dt → (Q u dt).PosSemidef) (hP : P0.PosSemidef) :
    ∃ r0 r1 : SWC (Vec n) n, runFilter (ekfApi (linFilter A b Q chi)) ⟨⟨x0, some 0⟩, P0⟩ inputs023 [] = .ok [r0, r1] ∧
      r1.state.stamp = some 2 ∧ r1.cov = prCov A Q ⟨(), some 0⟩ 2 P0 := by
  have p1 := psd_step_predict A b Q chi (⟨(), 0⟩ : StInp Unit) (x := ⟨⟨x0, some 0⟩, P0⟩) (τ := 0) (t := 2) rfl (by norm_num) hP
    (hQ _ _ (by norm_num))
  have hP1 : (linPred A b Q (⟨(), some 0⟩ : Inp Unit) 0 2 ⟨⟨x0, some 0⟩, P0⟩).cov.PosSemidef :=
    psd_add (psd_conj hP _) (hQ _ _ (by norm_num))
  have p2 := psd_step_predict A b Q chi (⟨(), 2⟩ : StInp Unit) (τ := 2) (t := 3)
    (x := linPred A b Q (⟨(), some 0⟩ : Inp Unit) 0 2 ⟨⟨x0, some 0⟩, P0⟩) rfl (by norm_num) hP1 (hQ _ _ (by norm_num))
  refine ⟨⟨⟨x0, some 0⟩, P0⟩, linPred A b Q ⟨(), some 0⟩ 0 2 ⟨⟨x0, some 0⟩, P0⟩, ?_, rfl, by simp [linPred, prCov]⟩
  rw [C21_run_filter_schedule _ _ 0 rfl _ _ (.inr ⟨⟨(), 0⟩, by simp [inputs023], le_rfl⟩) (.inl rfl)]
  show exec _ (schedule StInp.stamp StMeas.stamp true (retained StInp.stamp 0 inputs023) (retained StMeas.stamp 0 [])) _ = _
  rw [retained023]
  have e : retained StMeas.stamp 0 ([] : List (StMeas (Vec n) n)) = [] := by simp [retained, sortByStamp]
  rw [e]
  simp only [inputs023, schedule, List.filter_nil, List.map_nil, List.nil_append, List.cons_append, exec, p1, p2, Except.bind]
  rfl

theorem run_with (hQ : ∀ u dt, 0 ≤ dt → (Q u dt).PosSemidef) (hP : P0.PosSemidef) :
    ∃ r0 r1 : SWC (Vec n) n, runFilter (ekfApi (linFilter A b Q chi)) ⟨⟨x0, some 0⟩, P0⟩ inputs023 [(blind n).obj] = .ok [r0, r1] ∧
      r1.state.stamp = some 2 ∧ r1.cov = prCov A Q ⟨(), some 0⟩ 1 (prCov A Q ⟨(), some 0⟩ 1 P0) := by
  have c1 := linm_later A b Q chi (⟨(), 0⟩ : StInp Unit) (blind n) PosDef.one (x := ⟨⟨x0, some 0⟩, P0⟩) (τ := 0) rfl hP
    (hQ _ _ (by norm_num [blind])) (by norm_num [blind])
  set x1 := linPost (blind n).C (blind n).R (blind n).value (blind n).stamp
    (linPred A b Q (⟨(), some 0⟩ : Inp Unit) 0 (blind n).stamp ⟨⟨x0, some 0⟩, P0⟩) with hx1
  have k1 : x1.cov = prCov A Q ⟨(), some 0⟩ 1 P0 := by
    rw [hx1]
    show kCov (prCov A Q ⟨(), some 0⟩ (1 - 0) P0) (0 : Mat 1 n) (1 : Mat 1 1) = _
    rw [kCov_blind, sub_zero]
  have hP1 : x1.cov.PosSemidef := by
    rw [k1]
    exact prCov_psd _ hP (hQ _ _ (by norm_num))
  have p1 := psd_step_predict A b Q chi (⟨(), 0⟩ : StInp Unit) (x := x1) (τ := 1) (t := 2) rfl (by norm_num) hP1
    (hQ _ _ (by norm_num))
  have hP2 : (linPred A b Q (⟨(), some 0⟩ : Inp Unit) 1 2 x1).cov.PosSemidef := psd_add (psd_conj hP1 _) (hQ _ _ (by norm_num))
  have p2 := psd_step_predict A b Q chi (⟨(), 2⟩ : StInp Unit) (τ := 2) (t := 3)
    (x := linPred A b Q (⟨(), some 0⟩ : Inp Unit) 1 2 x1) rfl (by norm_num) hP2 (hQ _ _ (by norm_num))
  refine ⟨x1, linPred A b Q ⟨(), some 0⟩ 1 2 x1, ?_, rfl, ?_⟩
  · rw [C21_run_filter_schedule _ _ 0 rfl _ _ (.inr ⟨⟨(), 0⟩, by simp [inputs023], le_rfl⟩)
      (.inr ⟨(blind n).obj, by simp, by show (0 : ℝ) ≤ 1; norm_num⟩)]
    show exec _ (schedule StInp.stamp StMeas.stamp true (retained StInp.stamp 0 inputs023)
      (retained StMeas.stamp 0 ([blind n].map LinM.obj))) _ = _
    rw [retained023, retained_obj, retained_blind]
    have h1 : (blind n).obj.stamp < 2 := by show (1 : ℝ) < 2; norm_num
    have h2 : ¬ (2 : ℝ) ≤ (blind n).obj.stamp := by show ¬ (2 : ℝ) ≤ 1; norm_num
    have c1' : (ekfApi (linFilter A b Q chi)).correct ⟨⟨x0, some 0⟩, P0⟩ (blind n).obj ⟨(), 0⟩ = .ok x1 := c1
    simp only [inputs023, schedule, List.map_cons, List.map_nil, List.filter_cons, List.filter_nil, h1, h2, true_or, and_self, decide_true,
      if_true, List.nil_append, List.cons_append, exec, c1', p1, p2, Except.bind, false_and, or_false,
      decide_false, Bool.false_eq_true, if_false, and_true]
    rfl
  · show A ⟨(), some 0⟩ (2 - 1) * x1.cov * (A ⟨(), some 0⟩ (2 - 1))ᵀ + Q ⟨(), some 0⟩ (2 - 1) = _
    rw [k1, show (2 : ℝ) - 1 = 1 by norm_num]
    rfl

end blindRuns

/-- Position, then velocity. -/
def pv : Fin 2 → Fin 1 ⊕ Fin 1 := ![.inl 0, .inr 0]

/-- The double integrator on the line, its two states numbered. -/
noncomputable def di1A (_ : Inp Unit) (dt : ℝ) : Mat 2 2 := (diA (d := 1) dt).submatrix pv pv

/-- Its covariance for unit noise. -/
noncomputable def di1Q (_ : Inp Unit) (dt : ℝ) : Mat 2 2 := (diCovariance (1 : Mat 1 1) dt).submatrix pv pv

theorem di1Q_psd (u : Inp Unit) (dt : ℝ) : (di1Q u dt).PosSemidef := by
  unfold di1Q
  refine PosSemidef.submatrix ?_ _
  have := (PosSemidef.one (n := Fin 1) (R := ℝ)).mul_mul_conjTranspose_same (diL dt)
  rwa [conjTranspose_eq_transpose_of_trivial] at this

theorem di1A_val (u : Inp Unit) (dt : ℝ) : di1A u dt = !![1, dt; 0, 1] := by
  ext i j
  fin_cases i <;> fin_cases j
  · show diA (d := 1) dt (.inl 0) (.inl 0) = _; simp [diA]
  · show diA (d := 1) dt (.inl 0) (.inr 0) = _; simp [diA]
  · show diA (d := 1) dt (.inr 0) (.inl 0) = _; simp [diA]
  · show diA (d := 1) dt (.inr 0) (.inr 0) = _; simp [diA]

theorem di1Q_val (u : Inp Unit) (dt : ℝ) : di1Q u dt = !![dt ^ 4 / 4, dt ^ 3 / 2; dt ^ 3 / 2, dt ^ 2] := by
  ext i j
  fin_cases i <;> fin_cases j
  · show diCovariance (1 : Mat 1 1) dt (.inl 0) (.inl 0) = _; simp [diCovariance, diL, Matrix.mul_apply]; ring
  · show diCovariance (1 : Mat 1 1) dt (.inl 0) (.inr 0) = _; simp [diCovariance, diL, Matrix.mul_apply]; ring
  · show diCovariance (1 : Mat 1 1) dt (.inr 0) (.inl 0) = _; simp [diCovariance, diL, Matrix.mul_apply]; ring
  · show diCovariance (1 : Mat 1 1) dt (.inr 0) (.inr 0) = _; simp [diCovariance, diL, Matrix.mul_apply]; ring

/-- **C112 (double integrator).** For `DoubleIntegrator` more data can mean more uncertainty: its noise is an acceleration held over a
step, and a measurement cuts a step in two. Known initial state, inputs at 0, 2 and 3: with an (uninformative) measurement at 1, the
variance of position minus velocity reported at 2 is positive; without the measurement it is 0. -/
theorem C112_double_integrator (b : Inp Unit → ℝ → Vec 2) (chi : ℕ → ℝ) (x0 : Vec 2) :
    ∃ r0 r1 s0 s1 : SWC (Vec 2) 2,
      runFilter (ekfApi (linFilter di1A b di1Q chi)) ⟨⟨x0, some 0⟩, 0⟩ inputs023 [] = .ok [r0, r1] ∧
      runFilter (ekfApi (linFilter di1A b di1Q chi)) ⟨⟨x0, some 0⟩, 0⟩ inputs023 [(blind 2).obj] = .ok [s0, s1] ∧
      r1.state.stamp = some 2 ∧ s1.state.stamp = some 2 ∧
      ![1, -1] ⬝ᵥ r1.cov *ᵥ ![1, -1] = 0 ∧ 0 < ![1, -1] ⬝ᵥ s1.cov *ᵥ ![1, -1] ∧ ¬ CovLe s1.cov r1.cov := by
  obtain ⟨r0, r1, h1, h2, h3⟩ := run_without di1A b di1Q chi x0 0 (fun u dt _ => di1Q_psd u dt) PosSemidef.zero
  obtain ⟨s0, s1, k1, k2, k3⟩ := run_with di1A b di1Q chi x0 0 (fun u dt _ => di1Q_psd u dt) PosSemidef.zero
  have e1 : ![1, -1] ⬝ᵥ r1.cov *ᵥ ![1, -1] = 0 := by
    rw [h3]
    simp [prCov, di1Q_val, dotProduct, mulVec, Fin.sum_univ_two]
    norm_num
  have e2 : (0 : ℝ) < ![1, -1] ⬝ᵥ s1.cov *ᵥ ![1, -1] := by
    have e : s1.cov = !![5 / 2, 2; 2, 2] := by
      rw [k3]
      unfold prCov
      rw [di1Q_val, di1A_val, Matrix.mul_zero, Matrix.zero_mul, zero_add]
      ext i j
      fin_cases i <;> fin_cases j <;> simp [Matrix.mul_apply, Fin.sum_univ_two, Matrix.vecMul, dotProduct] <;> norm_num
    rw [e]
    simp [dotProduct, mulVec, Fin.sum_univ_two]
    norm_num
  refine ⟨r0, r1, s0, s1, h1, k1, h2, k2, e1, e2, fun hle => ?_⟩
  have := psd_dot hle ![1, -1]
  rw [sub_mulVec, dotProduct_sub, e1] at this
  linarith

/-- Non-vacuity of `C112_more_data`: a random walk, and the same log with an additional measurement. -/
example (Q : Mat 2 2) (hQ : Q.PosSemidef) (y : LinM 2) (hR : y.R.PosDef) (hy : y.stamp = 1 / 2) :
    ∃ rs rs' : List (SWC (Vec 2) 2),
      runFilter (ekfApi (linFilter (U := Unit) (fun _ _ => siJacobian 2) (fun _ _ => 0) (fun _ dt => siCovariance Q dt) fun _ => 0))
        ⟨⟨0, some 0⟩, 1⟩ inputs023 ([blind 2, y].map LinM.obj) = .ok rs ∧
      runFilter (ekfApi (linFilter (U := Unit) (fun _ _ => siJacobian 2) (fun _ _ => 0) (fun _ dt => siCovariance Q dt) fun _ => 0))
        ⟨⟨0, some 0⟩, 1⟩ inputs023 ([blind 2].map LinM.obj) = .ok rs' ∧ rs.length = rs'.length := by
  obtain ⟨rs, rs', h1, h2, h3, -⟩ := C112_more_data (U := Unit) (A := fun _ _ => siJacobian 2) (b := fun _ _ => 0) (b' := fun _ _ => 0)
    (Q := fun _ dt => siCovariance Q dt) (Q' := fun _ dt => siCovariance Q dt) (chi := fun _ => 0) (chi' := fun _ => 0)
    (fun _ dt _ => (C112_single_integrator (U := Unit) Q hQ).2 dt) (fun _ _ _ => covLe_refl _) (C112_single_integrator Q hQ).1 0 0 0 1 1
    PosSemidef.one (covLe_refl _) inputs023 [blind 2, y] [blind 2]
    ⟨by simp only [List.mem_cons, List.not_mem_nil, or_false]; rintro z (rfl | rfl); exacts [PosDef.one, hR],
      [blind 2], by simp, .cons (.mk _ _ _ _ _ _ PosDef.one (covLe_refl _)) .nil⟩
    (.inr ⟨⟨(), 0⟩, by simp [inputs023], le_rfl⟩) (.inr ⟨blind 2, by simp, by norm_num [blind]⟩)
    (.inr ⟨blind 2, by simp, by norm_num [blind]⟩) (by
      intro z hz s hs
      simp only [inputs023, List.map_cons, List.map_nil, List.cons_append, List.nil_append, List.mem_cons, List.not_mem_nil, or_false] at hz hs
      have hb : (blind 2).stamp = 1 := rfl
      unfold Distinguishable
      rcases hz with rfl | rfl <;> simp only [hb, hy] at hs ⊢ <;> rcases hs with rfl | rfl | rfl | rfl | rfl | rfl <;> norm_num)
  exact ⟨rs, rs', h1, h2, h3⟩

end Verif
