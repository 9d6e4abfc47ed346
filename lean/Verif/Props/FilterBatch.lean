import Verif.Props.RunFilter

/-!
C88: for linear models and Gaussian noise, `run_filter` around the extended Kalman filter returns at every recorded
time the marginal of the batch (maximum a posteriori) problem over the whole trajectory so far.
-/

namespace Verif

set_option linter.unusedVariables false
set_option linter.unusedSectionVars false

open Matrix

variable {U : Type} {n : ℕ}

/-! ### Specification: the batch cost -/

/-- Squared Mahalanobis norm. -/
noncomputable def mahal {m : ℕ} (R : Mat m m) (r : Vec m) : ℝ := r ⬝ᵥ R⁻¹ *ᵥ r

/-- Process factor between the states number `k` (time `τ`) and `k + 1` (time `t`) of a trajectory. -/
noncomputable def procTerm (e : EkfEnv (Vec n) U n) (X : ℕ → Vec n) (k : ℕ) (τ : ℝ) (u : StInp U) (t : ℝ) : ℝ :=
  mahal (e.proc.covariance ⟨X k, some τ⟩ ⟨u.value, some u.stamp⟩ (t - τ))
    (X (k + 1) - (e.proc.evaluate ⟨X k, some τ⟩ ⟨u.value, some u.stamp⟩ (t - τ)).value)

/-- Measurement factor on the state number `k`. -/
noncomputable def measTerm (X : ℕ → Vec n) (k : ℕ) (y : StMeas (Vec n) n) : ℝ :=
  match y.meas.model.evaluate ⟨X k, some y.stamp⟩ with
  | none => 0
  | some z => mahal (y.meas.model.covariance ⟨X k, some y.stamp⟩) (y.meas.value - z)

/-- Number of the last state of the chain: the state advances at every prediction and at every measurement that is
later than the current time (by more than the `1e-11` of the code). -/
noncomputable def lastIdx : ℕ → ℝ → List (Ev (StInp U) (StMeas (Vec n) n)) → ℕ
  | k, _, [] => k
  | k, τ, .record :: es => lastIdx k τ es
  | k, _, .predict _ t :: es => lastIdx (k + 1) t es
  | k, τ, .correct y _ :: es =>
    if y.stamp - τ > 1 / 10 ^ 11 then lastIdx (k + 1) y.stamp es else lastIdx k τ es

/-- Sum of the factors of a list of events, from the state number `k` at time `τ` on. -/
noncomputable def chainCost (e : EkfEnv (Vec n) U n) (X : ℕ → Vec n) :
    ℕ → ℝ → List (Ev (StInp U) (StMeas (Vec n) n)) → ℝ
  | _, _, [] => 0
  | k, τ, .record :: es => chainCost e X k τ es
  | k, τ, .predict u t :: es => procTerm e X k τ u t + chainCost e X (k + 1) t es
  | k, τ, .correct y u :: es =>
    if y.stamp - τ > 1 / 10 ^ 11 then
      procTerm e X k τ u y.stamp + (measTerm X (k + 1) y + chainCost e X (k + 1) y.stamp es)
    else measTerm X k y + chainCost e X k τ es

/-- The batch cost of a trajectory: the prior and all factors (twice the negative log posterior, up to a
constant). -/
noncomputable def batchCost (e : EkfEnv (Vec n) U n) (x0 : SWC (Vec n) n) (k : ℕ) (τ : ℝ)
    (es : List (Ev (StInp U) (StMeas (Vec n) n))) (X : ℕ → Vec n) : ℝ :=
  mahal x0.cov (X k - x0.state.value) + chainCost e X k τ es

/-- `r` is the marginal of the batch problem at its last state: for every value `v` of the last state, the smallest
cost of a trajectory ending in `v` is, up to one constant, the squared Mahalanobis distance of `v` from the mean of
`r` under the covariance of `r`. -/
def IsMarginal (e : EkfEnv (Vec n) U n) (x0 : SWC (Vec n) n) (k : ℕ) (τ : ℝ)
    (es : List (Ev (StInp U) (StMeas (Vec n) n))) (r : SWC (Vec n) n) : Prop :=
  r.cov.PosDef ∧ ∃ c : ℝ, ∀ v : Vec n,
    IsLeast {J | ∃ X : ℕ → Vec n, X (lastIdx k τ es) = v ∧ J = batchCost e x0 k τ es X}
      (c + mahal r.cov (v - r.state.value))

/-- A linear measurement with positive definite noise covariance. -/
def LinearMeas (y : StMeas (Vec n) n) : Prop :=
  ∃ (C : Mat y.meas.m n) (R : Mat y.meas.m y.meas.m), R.PosDef ∧ y.meas.model = linMeasModel C R

/-- The events go forward in time: predictions over positive intervals, no measurement before the current time. -/
def Forward : ℝ → List (Ev (StInp U) (StMeas (Vec n) n)) → Prop
  | _, [] => True
  | τ, .record :: es => Forward τ es
  | τ, .predict _ t :: es => τ < t ∧ Forward t es
  | τ, .correct y _ :: es => τ ≤ y.stamp ∧ LinearMeas y ∧
    Forward (if y.stamp - τ > 1 / 10 ^ 11 then y.stamp else τ) es

/-- Number of estimates recorded by a list of events. -/
def recorded {I Y : Type} : List (Ev I Y) → ℕ
  | [] => 0
  | .record :: es => recorded es + 1
  | _ :: es => recorded es

/-! ### Completing squares -/

/-- The smallest value of the sum of a prior and a linear factor. -/
theorem min_value {m : ℕ} {P : Mat n n} (hP : P.PosDef) (G : Mat m n) {R : Mat m m} (hR : R.PosDef) (x : Vec n)
    (y : Vec m) :
    let xp := x + kGain P G R *ᵥ (y - G *ᵥ x)
    (xp - x) ⬝ᵥ P⁻¹ *ᵥ (xp - x) + (y - G *ᵥ xp) ⬝ᵥ R⁻¹ *ᵥ (y - G *ᵥ xp)
      = mahal (G * P * Gᵀ + R) (y - G *ᵥ x) := by
  intro xp
  have hS := pd_det (innov_pd hP.posSemidef G hR)
  have e0 : xp - x = kGain P G R *ᵥ (y - G *ᵥ x) := by simp [xp]
  set r := y - G *ᵥ x with hr
  have e1 : y - G *ᵥ xp = r - G *ᵥ (kGain P G R *ᵥ r) := by
    simp only [xp, mulVec_add, hr]; abel
  have k1 : P⁻¹ * kGain P G R = Gᵀ * (G * P * Gᵀ + R)⁻¹ := by
    unfold kGain
    rw [← Matrix.mul_assoc, ← Matrix.mul_assoc, nonsing_inv_mul _ (unit_of_det (pd_det hP)), Matrix.one_mul]
  have k2 : R⁻¹ * (1 - G * kGain P G R) = (G * P * Gᵀ + R)⁻¹ := by
    have : (1 - G * kGain P G R) * (G * P * Gᵀ + R) = R := by
      rw [Matrix.sub_mul, Matrix.one_mul, Matrix.mul_assoc G (kGain P G R), kGain_mul P G R hS]
      simp only [Matrix.mul_assoc]; abel
    have h2 : R⁻¹ * (1 - G * kGain P G R) * (G * P * Gᵀ + R) = 1 := by
      rw [Matrix.mul_assoc, this, nonsing_inv_mul _ (unit_of_det (pd_det hR))]
    exact (inv_eq_left_inv h2).symm
  have f1 : P⁻¹ *ᵥ (xp - x) = Gᵀ *ᵥ ((G * P * Gᵀ + R)⁻¹ *ᵥ r) := by
    rw [e0, mulVec_mulVec, k1, mulVec_mulVec]
  have f2 : R⁻¹ *ᵥ (y - G *ᵥ xp) = (G * P * Gᵀ + R)⁻¹ *ᵥ r := by
    rw [e1, ← k2]
    simp only [mulVec_sub, Matrix.mul_sub, Matrix.sub_mulVec, Matrix.mul_one, ← mulVec_mulVec]
  rw [f1, f2]
  have f3 : (xp - x) ⬝ᵥ Gᵀ *ᵥ ((G * P * Gᵀ + R)⁻¹ *ᵥ r) = (G *ᵥ (xp - x)) ⬝ᵥ ((G * P * Gᵀ + R)⁻¹ *ᵥ r) := by
    rw [dotProduct_mulVec, vecMul_transpose]
  rw [f3, ← add_dotProduct, mulVec_sub]
  unfold mahal
  congr 1
  rw [hr]; abel

theorem mahal_nonneg {m : ℕ} {R : Mat m m} (hR : R.PosDef) (r : Vec m) : 0 ≤ mahal R r := by
  by_cases h : r = 0
  · rw [h]; simp [mahal]
  · exact (pd_dot hR.inv h).le

theorem mahal_pos {m : ℕ} {R : Mat m m} (hR : R.PosDef) {r : Vec m} (h : r ≠ 0) : 0 < mahal R r := pd_dot hR.inv h

theorem mahal_zero {m : ℕ} (R : Mat m m) : mahal R (0 : Vec m) = 0 := by simp [mahal]

/-! ### Chains only look at later states -/

theorem lastIdx_le : ∀ (es : List (Ev (StInp U) (StMeas (Vec n) n))) (k : ℕ) (τ : ℝ), k ≤ lastIdx k τ es
  | [], k, τ => le_refl _
  | .record :: es, k, τ => lastIdx_le es k τ
  | .predict u t :: es, k, τ => le_trans (Nat.le_succ k) (lastIdx_le es (k + 1) t)
  | .correct y u :: es, k, τ => by
    unfold lastIdx
    split
    · exact le_trans (Nat.le_succ k) (lastIdx_le es (k + 1) _)
    · exact lastIdx_le es k τ

theorem chainCost_congr (e : EkfEnv (Vec n) U n) : ∀ (es : List (Ev (StInp U) (StMeas (Vec n) n))) (k : ℕ) (τ : ℝ)
    (X X' : ℕ → Vec n), (∀ j, k ≤ j → X j = X' j) → chainCost e X k τ es = chainCost e X' k τ es
  | [], k, τ, X, X', h => rfl
  | .record :: es, k, τ, X, X', h => chainCost_congr e es k τ X X' h
  | .predict u t :: es, k, τ, X, X', h => by
    unfold chainCost procTerm
    rw [h k (le_refl _), h (k + 1) (Nat.le_succ k),
      chainCost_congr e es (k + 1) t X X' (fun j hj => h j (le_trans (Nat.le_succ k) hj))]
  | .correct y u :: es, k, τ, X, X', h => by
    unfold chainCost procTerm measTerm
    rw [h k (le_refl _), h (k + 1) (Nat.le_succ k),
      chainCost_congr e es (k + 1) y.stamp X X' (fun j hj => h j (le_trans (Nat.le_succ k) hj)),
      chainCost_congr e es k τ X X' h]

/-! ### One step -/

/-- What a prediction does to the marginal. -/
theorem marginal_predict (e : EkfEnv (Vec n) U n) {x x' : SWC (Vec n) n} {k : ℕ} {τ t : ℝ} {u : StInp U} {A Q : Mat n n} {b : Vec n} (hP : x.cov.PosDef) (hQ : Q.PosDef)
    (hev : ∀ v, (e.proc.evaluate ⟨v, some τ⟩ ⟨u.value, some u.stamp⟩ (t - τ)).value = A *ᵥ v + b)
    (hcov : ∀ v, e.proc.covariance ⟨v, some τ⟩ ⟨u.value, some u.stamp⟩ (t - τ) = Q)
    (hx' : x'.state.value = A *ᵥ x.state.value + b) (hP' : x'.cov = A * x.cov * Aᵀ + Q)
    (F : (ℕ → Vec n) → ℝ) (L : ℕ) (hL : k + 1 ≤ L) (hF : ∀ X X' : ℕ → Vec n, (∀ j, k + 1 ≤ j → X j = X' j) → F X = F X')
    {v : Vec n} {J : ℝ}
    (h : IsLeast {J | ∃ X : ℕ → Vec n, X L = v ∧ J = mahal x'.cov (X (k + 1) - x'.state.value) + F X} J) :
    IsLeast {J | ∃ X : ℕ → Vec n, X L = v ∧ J = mahal x.cov (X k - x.state.value) + (procTerm e X k τ u t + F X)} J := by
  have key : ∀ X : ℕ → Vec n, mahal x.cov (X k - x.state.value) + procTerm e X k τ u t =
      mahal x'.cov (X (k + 1) - x'.state.value) +
      (X k - (x.state.value + kGain x.cov A Q *ᵥ (X (k + 1) - b - A *ᵥ x.state.value))) ⬝ᵥ
        (x.cov⁻¹ + Aᵀ * Q⁻¹ * A) *ᵥ
        (X k - (x.state.value + kGain x.cov A Q *ᵥ (X (k + 1) - b - A *ᵥ x.state.value))) := by
    intro X
    have h1 := complete_square hP A hQ x.state.value (X (k + 1) - b) (X k)
    have h2 := min_value hP A hQ x.state.value (X (k + 1) - b)
    simp only at h1 h2
    rw [h2] at h1
    unfold procTerm
    rw [hev, hcov, hx', hP']
    have e1 : X (k + 1) - (A *ᵥ X k + b) = X (k + 1) - b - A *ᵥ X k := by abel
    have e2 : X (k + 1) - (A *ᵥ x.state.value + b) = X (k + 1) - b - A *ᵥ x.state.value := by abel
    rw [e1, e2]
    exact h1
  constructor
  · obtain ⟨X', hXL, hJ⟩ := h.1
    refine ⟨Function.update X' k (x.state.value + kGain x.cov A Q *ᵥ (X' (k + 1) - b - A *ᵥ x.state.value)), ?_, ?_⟩
    · rw [Function.update_of_ne (by omega), hXL]
    · rw [← add_assoc, key, Function.update_self, Function.update_of_ne (by omega), sub_self]
      rw [hF _ X' (fun j hj => Function.update_of_ne (by omega) _ _), hJ]
      simp
  · rintro J' ⟨X, hXL, rfl⟩
    have hge := h.2 ⟨X, hXL, rfl⟩
    rw [← add_assoc, key]
    have : 0 ≤ (X k - (x.state.value + kGain x.cov A Q *ᵥ (X (k + 1) - b - A *ᵥ x.state.value))) ⬝ᵥ
        (x.cov⁻¹ + Aᵀ * Q⁻¹ * A) *ᵥ
        (X k - (x.state.value + kGain x.cov A Q *ᵥ (X (k + 1) - b - A *ᵥ x.state.value))) := by
      have := (info_pd hP A hQ).posSemidef.dotProduct_mulVec_nonneg
        (X k - (x.state.value + kGain x.cov A Q *ᵥ (X (k + 1) - b - A *ᵥ x.state.value)))
      simpa using this
    linarith

/-- What a correction does to a prior and a measurement factor. -/
theorem marginal_correct {x x' : SWC (Vec n) n} {y : StMeas (Vec n) n} {C : Mat y.meas.m n}
    {R : Mat y.meas.m y.meas.m} (hP : x.cov.PosDef) (hR : R.PosDef) (hy : y.meas.model = linMeasModel C R)
    (hx' : x'.state.value = x.state.value + kGain x.cov C R *ᵥ (y.meas.value - C *ᵥ x.state.value))
    (hP' : x'.cov = kCov x.cov C R) (X : ℕ → Vec n) (k : ℕ) :
    mahal x.cov (X k - x.state.value) + measTerm X k y =
      mahal (C * x.cov * Cᵀ + R) (y.meas.value - C *ᵥ x.state.value) + mahal x'.cov (X k - x'.state.value) := by
  have h1 := complete_square hP C hR x.state.value y.meas.value (X k)
  have h2 := min_value hP C hR x.state.value y.meas.value
  simp only at h1 h2
  rw [h2, ← hx'] at h1
  have e1 : measTerm X k y = (y.meas.value - C *ᵥ X k) ⬝ᵥ R⁻¹ *ᵥ (y.meas.value - C *ᵥ X k) := by
    unfold measTerm
    rw [hy]
    rfl
  have e2 : x'.cov⁻¹ = x.cov⁻¹ + Cᵀ * R⁻¹ * C := by
    rw [hP', kCov_info hP C hR, Matrix.nonsing_inv_nonsing_inv _ (unit_of_det (pd_det (info_pd hP C hR)))]
  rw [e1]
  show (X k - x.state.value) ⬝ᵥ x.cov⁻¹ *ᵥ (X k - x.state.value) + _ = _
  rw [h1]
  show _ = _ + (X k - x'.state.value) ⬝ᵥ x'.cov⁻¹ *ᵥ (X k - x'.state.value)
  rw [e2]

/-! ### The filter on linear models -/

variable (A : Inp U → ℝ → Mat n n) (b : Inp U → ℝ → Vec n) (Q : Inp U → ℝ → Mat n n) (chi : ℕ → ℝ)

/-- The extended Kalman filter around a linear process model, without outlier rejection. -/
noncomputable abbrev linFilter : EkfEnv (Vec n) U n := vecEnv (linProcModel A b Q) false chi

theorem lin_predict {x : SWC (Vec n) n} {τ t : ℝ} (u : StInp U) (hx : x.state.stamp = some τ) (ht : τ < t)
    (hP : x.cov.PosDef) (hQ : ∀ u dt, 0 < dt → (Q u dt).PosDef) :
    ∃ x', predictTo (ekfApi (linFilter A b Q chi)) x u t = .ok x' ∧ x'.state.stamp = some t ∧ x'.cov.PosDef ∧
      x'.state.value = A ⟨u.value, some u.stamp⟩ (t - τ) *ᵥ x.state.value + b ⟨u.value, some u.stamp⟩ (t - τ) ∧
      x'.cov = A ⟨u.value, some u.stamp⟩ (t - τ) * x.cov * (A ⟨u.value, some u.stamp⟩ (t - τ))ᵀ
        + Q ⟨u.value, some u.stamp⟩ (t - τ) := by
  have hd : 0 < t - τ := by linarith
  have hpd : (A ⟨u.value, some u.stamp⟩ (t - τ) * x.cov * (A ⟨u.value, some u.stamp⟩ (t - τ))ᵀ
        + Q ⟨u.value, some u.stamp⟩ (t - τ)).PosDef :=
    innov_pd hP.posSemidef _ (hQ _ _ hd)
  have hs := symmetrize_eq (psd_symm hpd.posSemidef)
  have he : predictTo (ekfApi (linFilter A b Q chi)) x u t
      = (linFilter A b Q chi).predict x (some ⟨u.value, some u.stamp⟩) (some (t - τ)) none := by
    unfold predictTo
    show (match x.state.stamp with | none => _ | some t' => _) = _
    rw [hx]
    rfl
  rw [he, predict_some_some _ x _ τ (t - τ) none hx hd.le]
  refine ⟨_, rfl, ?_, ?_, rfl, hs⟩
  · show some (τ + (t - τ)) = some t
    rw [show τ + (t - τ) = t by ring]
  · exact (congrArg Matrix.PosDef hs).mpr hpd

theorem lin_correct {x : SWC (Vec n) n} {τ : ℝ} (u : Option (Inp U)) (y : StMeas (Vec n) n) {C : Mat y.meas.m n}
    {R : Mat y.meas.m y.meas.m} (hR : R.PosDef) (hy : y.meas.model = linMeasModel C R)
    (hx : x.state.stamp = some τ) (hP : x.cov.PosDef) (h1 : τ ≤ y.stamp) (h2 : ¬ y.stamp - τ > 1 / 10 ^ 11) :
    ∃ x', (linFilter A b Q chi).correct x y.meas u none none = .ok x' ∧ x'.state.stamp = some τ ∧ x'.cov.PosDef ∧
      x'.state.value = x.state.value + kGain x.cov C R *ᵥ (y.meas.value - C *ᵥ x.state.value) ∧
      x'.cov = kCov x.cov C R := by
  have hpd : (kCov x.cov C R).PosDef := by
    rw [kCov_info hP C hR]
    exact (info_pd hP C hR).inv
  unfold EkfEnv.correct
  rw [C06_no_predict (linFilter A b Q chi) x y.meas u none none τ y.stamp hx y.hstamp
    (le_trans (by norm_num) (sub_nonneg.mpr h1)) (not_lt.mp h2)]
  obtain ⟨⟨m, value, stamp, model⟩, ys, hst⟩ := y
  simp only at hy C R
  subst hy
  have hd : (innovCov x (⟨m, value, stamp, linMeasModel C R⟩ : Meas (Vec n) n) none).det ≠ 0 :=
    pd_det (innov_pd hP.posSemidef C hR)
  have hf := fuse_noreject (linFilter A b Q chi) x (⟨m, value, stamp, linMeasModel C R⟩ : Meas (Vec n) n) none
    (C *ᵥ x.state.value) rfl hd
  show ∃ x', ((linFilter A b Q chi).fuse x (⟨m, value, stamp, linMeasModel C R⟩ : Meas (Vec n) n) none false).map
    Prod.fst = .ok x' ∧ _
  rw [hf]
  refine ⟨_, rfl, hx, ?_, rfl, ?_⟩
  · show (symmetrize (kCov x.cov C R)).PosDef
    rw [symmetrize_eq (psd_symm hpd.posSemidef)]
    exact hpd
  · exact symmetrize_eq (psd_symm hpd.posSemidef)

/-! ### C88 -/

theorem marginal_refl (e : EkfEnv (Vec n) U n) (x : SWC (Vec n) n) (k : ℕ) (τ : ℝ) (hP : x.cov.PosDef) :
    IsMarginal e x k τ [] x := by
  refine ⟨hP, 0, fun v => ⟨⟨fun _ => v, rfl, ?_⟩, ?_⟩⟩
  · simp [batchCost, chainCost]
  · rintro J ⟨X, hX, rfl⟩
    have : X k = v := hX
    simp [batchCost, chainCost, this]

/-- A correction at the current time followed by events. -/
theorem marginal_measure (e : EkfEnv (Vec n) U n) {x x' r : SWC (Vec n) n} {y : StMeas (Vec n) n}
    {C : Mat y.meas.m n} {R : Mat y.meas.m y.meas.m} (hP : x.cov.PosDef) (hR : R.PosDef)
    (hy : y.meas.model = linMeasModel C R)
    (hx' : x'.state.value = x.state.value + kGain x.cov C R *ᵥ (y.meas.value - C *ᵥ x.state.value))
    (hP' : x'.cov = kCov x.cov C R) {k : ℕ} {τ : ℝ} {es : List (Ev (StInp U) (StMeas (Vec n) n))}
    (h : IsMarginal e x' k τ es r) :
    r.cov.PosDef ∧ ∃ c : ℝ, ∀ v : Vec n, IsLeast {J | ∃ X : ℕ → Vec n, X (lastIdx k τ es) = v ∧
      J = mahal x.cov (X k - x.state.value) + (measTerm X k y + chainCost e X k τ es)}
      (c + mahal r.cov (v - r.state.value)) := by
  obtain ⟨hr, c, hc⟩ := h
  refine ⟨hr, mahal (C * x.cov * Cᵀ + R) (y.meas.value - C *ᵥ x.state.value) + c, fun v => ?_⟩
  obtain ⟨⟨X, hX, hJ⟩, hlow⟩ := hc v
  constructor
  · refine ⟨X, hX, ?_⟩
    rw [← add_assoc, marginal_correct hP hR hy hx' hP' X k]
    unfold batchCost at hJ
    linarith
  · rintro J ⟨X', hX', rfl⟩
    have := hlow ⟨X', hX', rfl⟩
    rw [← add_assoc (mahal x.cov _), marginal_correct hP hR hy hx' hP' X' k]
    unfold batchCost at this
    linarith

/-- C88 for any list of events that goes forward in time. -/
theorem C88_events (hQ : ∀ u dt, 0 < dt → (Q u dt).PosDef) :
    ∀ (es : List (Ev (StInp U) (StMeas (Vec n) n))) (x : SWC (Vec n) n) (k : ℕ) (τ : ℝ), x.cov.PosDef →
      x.state.stamp = some τ → Forward τ es →
      ∃ rs, exec (ekfApi (linFilter A b Q chi)) es x = .ok rs ∧ rs.length = recorded es ∧
        ∀ (j : ℕ) (r : SWC (Vec n) n), rs[j]? = some r → ∃ pre post, es = pre ++ Ev.record :: post ∧
          recorded pre = j ∧ IsMarginal (linFilter A b Q chi) x k τ pre r
  | [], x, k, τ, hP, hx, hf => ⟨[], rfl, rfl, fun j r hr => (by simp at hr)⟩
  | .record :: es, x, k, τ, hP, hx, hf => by
    obtain ⟨rs, e1, e2, e3⟩ := C88_events hQ es x k τ hP hx hf
    refine ⟨x :: rs, ?_, by simp [recorded, e2], ?_⟩
    · unfold exec; rw [e1]; rfl
    · intro j r hr
      cases j with
      | zero =>
        cases hr
        exact ⟨[], es, rfl, rfl, marginal_refl _ _ _ _ hP⟩
      | succ j =>
        obtain ⟨pre, post, h1, h2, h3⟩ := e3 j r hr
        exact ⟨.record :: pre, post, by rw [h1]; rfl, by simp [recorded, h2], h3⟩
  | .predict u t :: es, x, k, τ, hP, hx, hf => by
    obtain ⟨ht, hf⟩ := hf
    obtain ⟨x', p1, p2, p3, p4, p5⟩ := lin_predict A b Q chi u hx ht hP hQ
    obtain ⟨rs, e1, e2, e3⟩ := C88_events hQ es x' (k + 1) t p3 p2 hf
    refine ⟨rs, ?_, by rw [e2]; rfl, ?_⟩
    · unfold exec; rw [p1]; exact e1
    · intro j r hr
      obtain ⟨pre, post, h1, h2, h3, c, h4⟩ := e3 j r hr
      refine ⟨.predict u t :: pre, post, by rw [h1]; rfl, h2, h3, c, fun v => ?_⟩
      exact marginal_predict (linFilter A b Q chi) hP (hQ _ _ (by linarith)) (fun _ => rfl) (fun _ => rfl) p4 p5
        (fun X => chainCost (linFilter A b Q chi) X (k + 1) t pre) _ (lastIdx_le pre (k + 1) t)
        (fun X X' h => chainCost_congr _ pre _ _ X X' h) (h4 v)
  | .correct y u :: es, x, k, τ, hP, hx, hf => by
    obtain ⟨ht, ⟨C, R, hR, hy⟩, hf⟩ := hf
    by_cases hlt : y.stamp - τ > 1 / 10 ^ 11
    · rw [if_pos hlt] at hf
      have hty : τ < y.stamp := by
        have : (0 : ℝ) < 1 / 10 ^ 11 := by positivity
        linarith
      obtain ⟨x1, p1, p2, p3, p4, p5⟩ := lin_predict A b Q chi u hx hty hP hQ
      obtain ⟨x', q1, q2, q3, q4, q5⟩ := lin_correct A b Q chi none y hR hy p2 p3 (le_refl _)
        (by rw [sub_self]; exact not_lt.mpr (by positivity))
      obtain ⟨rs, e1, e2, e3⟩ := C88_events hQ es x' (k + 1) y.stamp q3 q2 hf
      refine ⟨rs, ?_, by rw [e2]; rfl, ?_⟩
      · unfold exec
        show ((linFilter A b Q chi).correct x y.meas (some ⟨u.value, some u.stamp⟩) none none).bind _ = _
        rw [C02_correct_eq_predict_then_correct (linFilter A b Q chi) x y.meas ⟨u.value, some u.stamp⟩ none none τ
          y.stamp hx y.hstamp hlt]
        have p1' : (linFilter A b Q chi).predict x (some ⟨u.value, some u.stamp⟩) (some (y.stamp - τ)) none = .ok x1 := by
          unfold predictTo at p1
          have hxs : (ekfApi (linFilter A b Q chi)).xstamp x = some τ := hx
          rw [hxs] at p1
          exact p1
        rw [p1']
        show ((linFilter A b Q chi).correct x1 y.meas none none none).bind _ = _
        rw [q1]
        exact e1
      · intro j r hr
        obtain ⟨pre, post, h1, h2, h3⟩ := e3 j r hr
        obtain ⟨hr', c, h4⟩ := marginal_measure (linFilter A b Q chi) p3 hR hy q4 q5 h3
        refine ⟨.correct y u :: pre, post, by rw [h1]; rfl, h2, hr', c, fun v => ?_⟩
        have := marginal_predict (linFilter A b Q chi) hP (hQ ⟨u.value, some u.stamp⟩ (y.stamp - τ) (by linarith))
          (fun _ => rfl) (fun _ => rfl) p4 p5
          (fun X => measTerm X (k + 1) y + chainCost (linFilter A b Q chi) X (k + 1) y.stamp pre) _
          (lastIdx_le pre (k + 1) y.stamp)
          (fun X X' h => by
            rw [chainCost_congr _ pre _ _ X X' h]
            unfold measTerm
            rw [h (k + 1) (le_refl _)]) (h4 v)
        unfold batchCost
        unfold lastIdx chainCost
        rw [if_pos hlt]
        simp only [if_pos hlt]
        exact this
    · rw [if_neg hlt] at hf
      obtain ⟨x', q1, q2, q3, q4, q5⟩ := lin_correct A b Q chi (some ⟨u.value, some u.stamp⟩) y hR hy hx hP ht hlt
      obtain ⟨rs, e1, e2, e3⟩ := C88_events hQ es x' k τ q3 q2 hf
      refine ⟨rs, ?_, by rw [e2]; rfl, ?_⟩
      · unfold exec
        show ((linFilter A b Q chi).correct x y.meas (some ⟨u.value, some u.stamp⟩) none none).bind _ = _
        rw [q1]
        exact e1
      · intro j r hr
        obtain ⟨pre, post, h1, h2, h3⟩ := e3 j r hr
        obtain ⟨hr', c, h4⟩ := marginal_measure (linFilter A b Q chi) hP hR hy q4 q5 h3
        refine ⟨.correct y u :: pre, post, by rw [h1]; rfl, h2, hr', c, fun v => ?_⟩
        unfold batchCost
        unfold lastIdx chainCost
        rw [if_neg hlt]
        simp only [if_neg hlt]
        exact h4 v

theorem forward_corrects (u : StInp U) (es : List (Ev (StInp U) (StMeas (Vec n) n))) :
    ∀ (ys : List (StMeas (Vec n) n)) (τ : ℝ), (∀ y ∈ ys, τ ≤ y.stamp ∧ LinearMeas y) →
      ys.Pairwise (fun a c => a.stamp ≤ c.stamp) →
      (∀ τ', (τ' = τ ∨ ∃ y ∈ ys, τ' = y.stamp) → Forward τ' es) →
      Forward τ (ys.map (fun y => Ev.correct y u) ++ es)
  | [], τ, _, _, h => h τ (.inl rfl)
  | y :: ys, τ, hy, hs, h => by
    obtain ⟨h1, h2⟩ := hy y (by simp)
    refine ⟨h1, h2, ?_⟩
    split
    · refine forward_corrects u es ys y.stamp (fun z hz => ⟨(List.pairwise_cons.mp hs).1 z hz, (hy z (by simp [hz])).2⟩)
        (List.pairwise_cons.mp hs).2 (fun τ' ht => h τ' ?_)
      rcases ht with rfl | ⟨z, hz, rfl⟩
      · exact .inr ⟨y, by simp, rfl⟩
      · exact .inr ⟨z, by simp [hz], rfl⟩
    · refine forward_corrects u es ys τ (fun z hz => hy z (by simp [hz])) (List.pairwise_cons.mp hs).2
        (fun τ' ht => h τ' ?_)
      rcases ht with rfl | ⟨z, hz, rfl⟩
      · exact .inl rfl
      · exact .inr ⟨z, by simp [hz], rfl⟩

theorem forward_schedule {meas : List (StMeas (Vec n) n)} (hl : ∀ y ∈ meas, LinearMeas y)
    (hm : meas.Pairwise (fun a c => a.stamp ≤ c.stamp)) :
    ∀ (us : List (StInp U)) (u : StInp U) (τ : ℝ) (first : Bool), τ ≤ u.stamp →
      (first = true → ∀ y ∈ meas, τ ≤ y.stamp) → (u :: us).Pairwise (fun a c => a.stamp < c.stamp) →
      Forward τ (schedule StInp.stamp StMeas.stamp first (u :: us) meas)
  | [], u, τ, first, h1, h2, h3 => trivial
  | u' :: us, u, τ, first, h1, h2, h3 => by
    have huu : u.stamp < u'.stamp := (List.pairwise_cons.mp h3).1 u' (by simp)
    unfold schedule
    rw [List.append_assoc]
    refine forward_corrects u _ _ τ (fun y hy => ?_) (hm.filter _) (fun τ' ht => ?_)
    · obtain ⟨hy1, hy2⟩ := List.mem_filter.mp hy
      simp only [decide_eq_true_eq] at hy2
      refine ⟨?_, hl y hy1⟩
      rcases hy2.1 with hf | hf
      · exact h2 hf y hy1
      · exact le_trans h1 hf
    · have hlt : τ' < u'.stamp := by
        rcases ht with rfl | ⟨y, hy, rfl⟩
        · linarith
        · have := (List.mem_filter.mp hy).2
          simp only [decide_eq_true_eq] at this
          exact this.2
      exact ⟨hlt, forward_schedule hl hm us u' u'.stamp false (le_refl _) (fun h => (by cases h))
        (List.pairwise_cons.mp h3).2⟩

/-- C88: with linear models and Gaussian noise, `run_filter` does not raise, and the estimate it records at each
input is the marginal, at that time, of the batch problem made of the prior and of all the process and measurement
factors up to then, in mean and in covariance. -/
theorem C88_run_filter (hQ : ∀ u dt, 0 < dt → (Q u dt).PosDef) (x0 : SWC (Vec n) n) (t0 : ℝ) (hP : x0.cov.PosDef)
    (hx : x0.state.stamp = some t0) (ins : List (StInp U)) (meas : List (StMeas (Vec n) n))
    (hi : ins = [] ∨ ∃ u ∈ ins, t0 ≤ u.stamp) (hm : meas = [] ∨ ∃ y ∈ meas, t0 ≤ y.stamp)
    (hd : (ins.map StInp.stamp).Nodup) (hl : ∀ y ∈ meas, LinearMeas y) :
    ∃ rs, runFilter (ekfApi (linFilter A b Q chi)) x0 ins meas = .ok rs ∧
      rs.length = recorded (schedule StInp.stamp StMeas.stamp true (retained StInp.stamp t0 ins)
        (retained StMeas.stamp t0 meas)) ∧
      ∀ (j : ℕ) (r : SWC (Vec n) n), rs[j]? = some r → ∃ pre post,
        schedule StInp.stamp StMeas.stamp true (retained StInp.stamp t0 ins) (retained StMeas.stamp t0 meas)
          = pre ++ Ev.record :: post ∧
        recorded pre = j ∧ IsMarginal (linFilter A b Q chi) x0 0 t0 pre r := by
  have hfw : Forward t0
      (schedule StInp.stamp StMeas.stamp true (retained StInp.stamp t0 ins) (retained StMeas.stamp t0 meas)) := by
    have hr1 : ∀ u ∈ retained StInp.stamp t0 ins, t0 ≤ u.stamp := by
      intro u hu
      unfold retained at hu
      simpa using (List.mem_filter.mp hu).2
    have hr2 : ∀ y ∈ retained StMeas.stamp t0 meas, t0 ≤ y.stamp := by
      intro u hu
      unfold retained at hu
      simpa using (List.mem_filter.mp hu).2
    have hl2 : ∀ y ∈ retained StMeas.stamp t0 meas, LinearMeas y := by
      intro y hy
      unfold retained at hy
      exact hl y ((sortByStamp_mem _).mp (List.mem_filter.mp hy).1)
    have hs1 : (retained StInp.stamp t0 ins).Pairwise (fun a c => a.stamp < c.stamp) := by
      have h1 : (sortByStamp StInp.stamp ins).Pairwise (fun a c : StInp U => a.stamp ≤ c.stamp) :=
        sortByStamp_sorted _ _
      have h2 : ((sortByStamp StInp.stamp ins).map StInp.stamp).Nodup :=
        ((sortByStamp_perm StInp.stamp ins).map _).nodup_iff.mpr hd
      rw [List.Nodup, List.pairwise_map] at h2
      unfold retained
      exact ((h1.and h2).imp (fun h => lt_of_le_of_ne h.1 h.2)).filter _
    have hs2 : (retained StMeas.stamp t0 meas).Pairwise (fun a c => a.stamp ≤ c.stamp) :=
      (sortByStamp_sorted _ _).filter _ _
    cases hc : retained StInp.stamp t0 ins with
    | nil => exact trivial
    | cons u us =>
      rw [hc] at hs1
      exact forward_schedule hl2 hs2 us u t0 true (hr1 u (by rw [hc]; simp)) (fun _ => hr2) hs1
  obtain ⟨rs, e1, e2, e3⟩ := C88_events A b Q chi hQ _ x0 0 t0 hP hx hfw
  refine ⟨rs, ?_, e2, e3⟩
  rw [C21_run_filter_schedule (ekfApi (linFilter A b Q chi)) x0 t0 hx ins meas hi hm]
  exact e1

/-- Being the marginal means being the answer of the batch problem: a trajectory of smallest cost exists, and every
such trajectory ends in the mean of the filter. -/
theorem C88_marginal_is_map (e : EkfEnv (Vec n) U n) {x0 r : SWC (Vec n) n} {k : ℕ} {τ : ℝ}
    {es : List (Ev (StInp U) (StMeas (Vec n) n))} (h : IsMarginal e x0 k τ es r) :
    (∃ X : ℕ → Vec n, (∀ X', batchCost e x0 k τ es X ≤ batchCost e x0 k τ es X') ∧
      X (lastIdx k τ es) = r.state.value) ∧
    ∀ X : ℕ → Vec n, (∀ X', batchCost e x0 k τ es X ≤ batchCost e x0 k τ es X') →
      X (lastIdx k τ es) = r.state.value := by
  obtain ⟨hr, c, hc⟩ := h
  have hlow : ∀ X : ℕ → Vec n, c + mahal r.cov (X (lastIdx k τ es) - r.state.value) ≤ batchCost e x0 k τ es X :=
    fun X => (hc _).2 ⟨X, rfl, rfl⟩
  obtain ⟨⟨X, hX, hJ⟩, _⟩ := hc r.state.value
  rw [sub_self, mahal_zero, add_zero] at hJ
  constructor
  · refine ⟨X, fun X' => ?_, hX⟩
    have := hlow X'
    have := mahal_nonneg hr (X' (lastIdx k τ es) - r.state.value)
    linarith
  · intro X1 h1
    by_contra hne
    have h2 := mahal_pos hr (sub_ne_zero.mpr hne)
    have h3 := hlow X1
    have h4 := h1 X
    linarith

/-- A measurement of a scalar state. -/
noncomputable def exMeas88 : StMeas (Vec 1) 1 := ⟨linMeas (1 : Mat 1 1) 1 (fun _ => 3) (some (1 / 2)), 1 / 2, rfl⟩

/-- The hypotheses of `C88_run_filter` are met, with three inputs and a measurement between the first two. -/
example : ∃ rs, runFilter (ekfApi (linFilter (fun (_ : Inp (Vec 1)) _ => (1 : Mat 1 1)) (fun u dt => dt • u.value)
    (fun _ dt => if 0 < dt then (1 : Mat 1 1) else 0) (fun _ => 0))) ⟨⟨0, some 0⟩, 1⟩ [⟨1, 0⟩, ⟨1, 1⟩, ⟨0, 2⟩]
    [exMeas88] = .ok rs := by
  have h := C88_run_filter (n := 1) (fun (_ : Inp (Vec 1)) _ => (1 : Mat 1 1)) (fun u dt => dt • u.value)
    (fun _ dt => if 0 < dt then (1 : Mat 1 1) else 0) (fun _ => 0)
    (fun u dt hdt => by simp only [if_pos hdt]; exact Matrix.PosDef.one) ⟨⟨0, some 0⟩, 1⟩ 0 Matrix.PosDef.one rfl
    [⟨1, 0⟩, ⟨1, 1⟩, ⟨0, 2⟩] [exMeas88]
    (.inr ⟨⟨1, 0⟩, by simp, le_refl _⟩) (.inr ⟨exMeas88, by simp, by norm_num [exMeas88]⟩) (by norm_num)
    (fun y hy => by
      rw [List.mem_singleton.mp hy]
      exact ⟨(1 : Mat 1 1), (1 : Mat 1 1), Matrix.PosDef.one, rfl⟩)
  obtain ⟨rs, h1, _, _⟩ := h
  exact ⟨rs, h1⟩

end Verif
