import Verif.Props.Innovations

/-!
C131: guarantees of the linear filter that need no probabilities: the error is bounded by the noise that occurred, perfect data never
make it worse, and the initial guess is not amplified.
-/

set_option linter.unusedSectionVars false
set_option linter.unusedVariables false

namespace Verif

open Matrix

variable {n : ℕ} {U : Type}

/-! ### Specification -/

/-- The normalised estimation error squared of an estimate, when the truth is `X`. -/
noncomputable def truthNees (X : ℝ → Vec n) (r : SWC (Vec n) n) : ℝ :=
  mahal r.cov (X (r.state.stamp.getD 0) - r.state.value)

/-- The noise in a list of events when the truth is `X`, each noise measured by the covariance that the model gives for it: what the
process model does not explain of each step in time, and what the measurement model does not explain of each measurement. -/
noncomputable def noiseEnergy (e : EkfEnv (Vec n) U n) (X : ℝ → Vec n) : ℝ → List (Ev (StInp U) (StMeas (Vec n) n)) → ℝ
  | _, [] => 0
  | τ, .record :: es => noiseEnergy e X τ es
  | τ, .predict u t :: es =>
    mahal (e.proc.covariance ⟨X τ, some τ⟩ ⟨u.value, some u.stamp⟩ (t - τ))
      (X t - (e.proc.evaluate ⟨X τ, some τ⟩ ⟨u.value, some u.stamp⟩ (t - τ)).value) + noiseEnergy e X t es
  | τ, .correct y u :: es =>
    if y.stamp - τ > 1 / 10 ^ 11 then
      mahal (e.proc.covariance ⟨X τ, some τ⟩ ⟨u.value, some u.stamp⟩ (y.stamp - τ))
        (X y.stamp - (e.proc.evaluate ⟨X τ, some τ⟩ ⟨u.value, some u.stamp⟩ (y.stamp - τ)).value)
        + (measTerm (fun _ => X y.stamp) 0 y + noiseEnergy e X y.stamp es)
    else measTerm (fun _ => X τ) 0 y + noiseEnergy e X τ es

/-- The data of the events follow the models exactly when the truth is `X`. -/
def PerfectEvents (e : EkfEnv (Vec n) U n) (X : ℝ → Vec n) : ℝ → List (Ev (StInp U) (StMeas (Vec n) n)) → Prop
  | _, [] => True
  | τ, .record :: es => PerfectEvents e X τ es
  | τ, .predict u t :: es =>
    X t = (e.proc.evaluate ⟨X τ, some τ⟩ ⟨u.value, some u.stamp⟩ (t - τ)).value ∧ PerfectEvents e X t es
  | τ, .correct y u :: es =>
    if y.stamp - τ > 1 / 10 ^ 11 then
      X y.stamp = (e.proc.evaluate ⟨X τ, some τ⟩ ⟨u.value, some u.stamp⟩ (y.stamp - τ)).value ∧
        y.meas.model.evaluate ⟨X y.stamp, some y.stamp⟩ = some y.meas.value ∧ PerfectEvents e X y.stamp es
    else y.meas.model.evaluate ⟨X τ, some y.stamp⟩ = some y.meas.value ∧ PerfectEvents e X τ es

/-- The time at the end of a list of events. -/
noncomputable def endTime : ℝ → List (Ev (StInp U) (StMeas (Vec n) n)) → ℝ
  | τ, [] => τ
  | τ, .record :: es => endTime τ es
  | _, .predict _ t :: es => endTime t es
  | τ, .correct y _ :: es => endTime (if y.stamp - τ > 1 / 10 ^ 11 then y.stamp else τ) es

/-! ### Single steps -/

theorem mahal_predict {P Q A : Mat n n} (hP : P.PosDef) (hQ : Q.PosDef) (b x X X' : Vec n) :
    mahal (A * P * Aᵀ + Q) (X' - (A *ᵥ x + b)) ≤ mahal P (X - x) + mahal Q (X' - (A *ᵥ X + b)) := by
  have h1 := complete_square hP A hQ x (X' - b) X
  have h2 := min_value hP A hQ x (X' - b)
  simp only at h1 h2
  rw [h2] at h1
  have e1 : X' - (A *ᵥ X + b) = X' - b - A *ᵥ X := by abel
  have e2 : X' - (A *ᵥ x + b) = X' - b - A *ᵥ x := by abel
  have h3 : 0 ≤ (X - (x + kGain P A Q *ᵥ (X' - b - A *ᵥ x))) ⬝ᵥ (P⁻¹ + Aᵀ * Q⁻¹ * A) *ᵥ (X - (x + kGain P A Q *ᵥ (X' - b - A *ᵥ x))) := by
    have := (info_pd hP A hQ).posSemidef.dotProduct_mulVec_nonneg (X - (x + kGain P A Q *ᵥ (X' - b - A *ᵥ x)))
    simpa using this
  rw [e1, e2]
  unfold mahal at h1 ⊢
  rw [h1]
  linarith

/-- No component of a vector exceeds its variance times the normalised square of the vector. -/
theorem mahal_component {P : Mat n n} (hP : P.PosDef) (v : Vec n) (i : Fin n) : v i ^ 2 ≤ P i i * mahal P v := by
  have hs := psd_symm hP.posSemidef
  have hv : P *ᵥ (P⁻¹ *ᵥ v) = v := by rw [mulVec_mulVec, mul_nonsing_inv P (pd_det hP).isUnit, one_mulVec]
  have key : ∀ t : ℝ, 0 ≤ P i i * (t * t) + 2 * v i * t + mahal P v := by
    intro t
    have h := hP.posSemidef.dotProduct_mulVec_nonneg (t • Pi.single i 1 + P⁻¹ *ᵥ v)
    simp only [star_trivial] at h
    rw [mulVec_add, hv, mulVec_smul, add_dotProduct, dotProduct_add, dotProduct_add, smul_dotProduct, smul_dotProduct, dotProduct_smul,
      dotProduct_smul] at h
    have h1 : (Pi.single i (1 : ℝ) : Vec n) ⬝ᵥ P *ᵥ Pi.single i 1 = P i i := by simp
    have h2 : (Pi.single i (1 : ℝ) : Vec n) ⬝ᵥ v = v i := by simp
    have h3 : (P⁻¹ *ᵥ v) ⬝ᵥ P *ᵥ (Pi.single i (1 : ℝ) : Vec n) = v i := by
      rw [dotProduct_mulVec, ← mulVec_transpose, hs, hv]
      simp
    have h4 : (P⁻¹ *ᵥ v) ⬝ᵥ v = mahal P v := dotProduct_comm _ _
    rw [h1, h2, h3, h4] at h
    simp only [smul_eq_mul] at h
    linarith
  have := discrim_le_zero key
  unfold discrim at this
  nlinarith

section run
variable (A : Inp U → ℝ → Mat n n) (b : Inp U → ℝ → Vec n) (Q : Inp U → ℝ → Mat n n) (chi : ℕ → ℝ)

/-- The deterministic bound, for any list of events that goes forward in time. -/
theorem C131_events (hQ : ∀ u dt, 0 < dt → (Q u dt).PosDef) (X : ℝ → Vec n) :
    ∀ (es : List (Ev (StInp U) (StMeas (Vec n) n))) (x : SWC (Vec n) n) (τ : ℝ), x.cov.PosDef →
      x.state.stamp = some τ → Forward τ es →
      ∃ ds r, Reports id (linFilter A b Q chi) es x ds r ∧ r.cov.PosDef ∧ r.state.stamp = some (endTime τ es) ∧ (∀ d ∈ ds, d.S.PosDef) ∧
        (ds.map nis).sum + truthNees X r ≤ truthNees X x + noiseEnergy (linFilter A b Q chi) X τ es
  | [], x, τ, hP, hx, hf => ⟨[], x, ⟨rfl, rfl⟩, hP, hx, by simp, by simp [noiseEnergy]⟩
  | .record :: es, x, τ, hP, hx, hf => C131_events hQ X es x τ hP hx hf
  | .predict u t :: es, x, τ, hP, hx, hf => by
    obtain ⟨ht, hf⟩ := hf
    obtain ⟨x', p1, p2, p3, p4, p5⟩ := lin_predict A b Q chi u hx ht hP hQ
    obtain ⟨ds, r, e1, e2, es0, e0, e3⟩ := C131_events hQ X es x' t p3 p2 hf
    refine ⟨ds, r, ⟨x', p1, e1⟩, e2, es0, e0, ?_⟩
    have h := mahal_predict hP (hQ ⟨u.value, some u.stamp⟩ (t - τ) (by linarith)) (A := A ⟨u.value, some u.stamp⟩ (t - τ))
      (b ⟨u.value, some u.stamp⟩ (t - τ)) x.state.value (X τ) (X t)
    unfold truthNees at e3 ⊢
    rw [p2, p4, p5] at e3
    rw [hx]
    unfold noiseEnergy
    simp only [Option.getD_some] at e3 ⊢
    have e4 : mahal ((linFilter A b Q chi).proc.covariance ⟨X τ, some τ⟩ ⟨u.value, some u.stamp⟩ (t - τ))
      (X t - ((linFilter A b Q chi).proc.evaluate ⟨X τ, some τ⟩ ⟨u.value, some u.stamp⟩ (t - τ)).value)
      = mahal (Q ⟨u.value, some u.stamp⟩ (t - τ)) (X t - (A ⟨u.value, some u.stamp⟩ (t - τ) *ᵥ X τ + b ⟨u.value, some u.stamp⟩ (t - τ))) := rfl
    rw [e4]
    linarith
  | .correct y u :: es, x, τ, hP, hx, hf => by
    obtain ⟨ht, ⟨C, R, hR, hy⟩, hf⟩ := hf
    obtain ⟨⟨m, w, st, mdl⟩, s, hst⟩ := y
    simp only at hy C R hst ht hf hR
    subst hy hst
    have hcor : ∀ (x : SWC (Vec n) n) (v : Vec n), x.cov.PosDef → ∀ s', mahal x.cov (v - x.state.value)
        + measTerm (fun _ => v) 0 ⟨⟨m, w, some s, linMeasModel C R⟩, s, rfl⟩
        = mahal (C * x.cov * Cᵀ + R) (w - C *ᵥ x.state.value)
          + mahal (linPost C R w s' x).cov (v - (linPost C R w s' x).state.value) := fun x v hP s' =>
      marginal_correct (y := ⟨⟨m, w, some s, linMeasModel C R⟩, s, rfl⟩) (x' := linPost C R w s' x) hP hR rfl rfl rfl (fun _ => v) 0
    have hpd : ∀ x : SWC (Vec n) n, x.cov.PosDef → (kCov x.cov C R).PosDef := fun x hP => by
      rw [kCov_info hP C hR]
      exact (info_pd hP C hR).inv
    by_cases hlt : s - τ > 1 / 10 ^ 11
    · rw [if_pos hlt] at hf
      have hty : τ < s := by
        have : (0 : ℝ) < 1 / 10 ^ 11 := by positivity
        linarith
      have hq := hQ ⟨u.value, some u.stamp⟩ (s - τ) (by linarith)
      have hP1 : (linPred A b Q ⟨u.value, some u.stamp⟩ τ s x).cov.PosDef := innov_pd hP.posSemidef _ hq
      have hD := lin_laterD A b Q chi u C w s hR hx hP.posSemidef hq.posSemidef hlt
      obtain ⟨ds, r, e1, e2, es0, e0, e3⟩ := C131_events hQ X es (linPost C R w s (linPred A b Q ⟨u.value, some u.stamp⟩ τ s x)) s (hpd _ hP1) rfl hf
      refine ⟨_, r, ⟨_, _, ds, hD, rfl, e1⟩, e2, by unfold endTime; rw [if_pos hlt]; exact es0, List.forall_mem_cons.mpr ⟨innov_pd hP1.posSemidef C hR, e0⟩, ?_⟩
      have h1 := hcor (linPred A b Q ⟨u.value, some u.stamp⟩ τ s x) (X s) hP1 s
      have h2 : mahal (linPred A b Q ⟨u.value, some u.stamp⟩ τ s x).cov (X s - (linPred A b Q ⟨u.value, some u.stamp⟩ τ s x).state.value)
          ≤ mahal x.cov (X τ - x.state.value) + mahal (Q ⟨u.value, some u.stamp⟩ (s - τ))
            (X s - (A ⟨u.value, some u.stamp⟩ (s - τ) *ᵥ X τ + b ⟨u.value, some u.stamp⟩ (s - τ))) :=
        mahal_predict hP hq (A := A ⟨u.value, some u.stamp⟩ (s - τ)) (b ⟨u.value, some u.stamp⟩ (s - τ)) x.state.value (X τ) (X s)
      have e4 : truthNees X (linPost C R w s (linPred A b Q ⟨u.value, some u.stamp⟩ τ s x))
          = mahal (linPost C R w s (linPred A b Q ⟨u.value, some u.stamp⟩ τ s x)).cov
            (X s - (linPost C R w s (linPred A b Q ⟨u.value, some u.stamp⟩ τ s x)).state.value) := rfl
      have e5 : truthNees X x = mahal x.cov (X τ - x.state.value) := by
        unfold truthNees
        rw [hx]
        rfl
      rw [e4] at e3
      rw [e5, List.map_cons, List.sum_cons]
      unfold noiseEnergy
      rw [if_pos hlt]
      have e6 : nis ⟨m, w - C *ᵥ (linPred A b Q ⟨u.value, some u.stamp⟩ τ s x).state.value,
            C * (linPred A b Q ⟨u.value, some u.stamp⟩ τ s x).cov * Cᵀ + R, false⟩
          = mahal (C * (linPred A b Q ⟨u.value, some u.stamp⟩ τ s x).cov * Cᵀ + R)
            (w - C *ᵥ (linPred A b Q ⟨u.value, some u.stamp⟩ τ s x).state.value) := rfl
      have e7 : mahal ((linFilter A b Q chi).proc.covariance ⟨X τ, some τ⟩ ⟨u.value, some u.stamp⟩ (s - τ))
          (X s - ((linFilter A b Q chi).proc.evaluate ⟨X τ, some τ⟩ ⟨u.value, some u.stamp⟩ (s - τ)).value)
          = mahal (Q ⟨u.value, some u.stamp⟩ (s - τ)) (X s - (A ⟨u.value, some u.stamp⟩ (s - τ) *ᵥ X τ + b ⟨u.value, some u.stamp⟩ (s - τ))) := rfl
      rw [e6, e7]
      linarith
    · rw [if_neg hlt] at hf
      have hD := psd_step_hereD A b Q chi (some ⟨u.value, some u.stamp⟩) C w s hR hx hP.posSemidef ht hlt
      obtain ⟨ds, r, e1, e2, es0, e0, e3⟩ := C131_events hQ X es (linPost C R w τ x) τ (hpd x hP) rfl hf
      refine ⟨_, r, ⟨_, _, ds, hD, rfl, e1⟩, e2, by unfold endTime; rw [if_neg hlt]; exact es0, List.forall_mem_cons.mpr ⟨innov_pd hP.posSemidef C hR, e0⟩, ?_⟩
      have h1 := hcor x (X τ) hP τ
      have e4 : truthNees X (linPost C R w τ x) = mahal (linPost C R w τ x).cov (X τ - (linPost C R w τ x).state.value) := rfl
      have e5 : truthNees X x = mahal x.cov (X τ - x.state.value) := by
        unfold truthNees
        rw [hx]
        rfl
      rw [e4] at e3
      rw [e5, List.map_cons, List.sum_cons]
      unfold noiseEnergy
      rw [if_neg hlt]
      have e6 : nis ⟨m, w - C *ᵥ x.state.value, C * x.cov * Cᵀ + R, false⟩ = mahal (C * x.cov * Cᵀ + R) (w - C *ᵥ x.state.value) := rfl
      rw [e6]
      linarith



/-- C131: with linear models, whatever the data and whatever the truth, at every estimate that `run_filter` records, the normalised
innovations squared reported until then and the normalised estimation error squared add up to at most the one of the initial estimate
and the energy of the noise until then; and no component of the error exceeds that budget times its variance. -/
theorem C131_bound (hQ : ∀ u dt, 0 < dt → (Q u dt).PosDef) (X : ℝ → Vec n) (x0 : SWC (Vec n) n) (t0 : ℝ) (hP : x0.cov.PosDef)
    (hx : x0.state.stamp = some t0) (ins : List (StInp U)) (meas : List (StMeas (Vec n) n))
    (hi : ins = [] ∨ ∃ u ∈ ins, t0 ≤ u.stamp) (hm : meas = [] ∨ ∃ y ∈ meas, t0 ≤ y.stamp)
    (hd : (ins.map StInp.stamp).Nodup) (hl : ∀ y ∈ meas, LinearMeas y) :
    ∃ rs, runFilter (ekfApi (linFilter A b Q chi)) x0 ins meas = .ok rs ∧
      ∀ (j : ℕ) (r : SWC (Vec n) n), rs[j]? = some r → ∃ pre post ds,
        schedule StInp.stamp StMeas.stamp true (retained StInp.stamp t0 ins) (retained StMeas.stamp t0 meas)
          = pre ++ Ev.record :: post ∧
        recorded pre = j ∧ Reports id (linFilter A b Q chi) pre x0 ds r ∧
        (ds.map nis).sum + truthNees X r ≤ truthNees X x0 + noiseEnergy (linFilter A b Q chi) X t0 pre ∧
        ∀ i, (X (r.state.stamp.getD 0) i - r.state.value i) ^ 2
          ≤ r.cov i i * (truthNees X x0 + noiseEnergy (linFilter A b Q chi) X t0 pre) := by
  have hfw := run_forward (t0 := t0) hd hl
  obtain ⟨rs, e1, -, e3⟩ := C88_run_filter A b Q chi hQ x0 t0 hP hx ins meas hi hm hd hl
  refine ⟨rs, e1, fun j r hr => ?_⟩
  obtain ⟨pre, post, h1, h2, -⟩ := e3 j r hr
  rw [C21_run_filter_schedule (ekfApi (linFilter A b Q chi)) x0 t0 hx ins meas hi hm] at e1
  have e1' : exec (ekfApi (linFilter A b Q chi))
    (schedule StInp.stamp StMeas.stamp true (retained StInp.stamp t0 ins) (retained StMeas.stamp t0 meas)) x0 = .ok rs := e1
  rw [h1] at hfw e1'
  obtain ⟨ds, r', g1, g2, -, g0, g3⟩ := C131_events A b Q chi hQ X pre x0 t0 hP hx (forward_prefix pre _ t0 hfw)
  have h4 := reports_recorded (f := id) (fun _ _ _ => rfl) (fun _ _ _ => rfl) pre post g1 e1'
  rw [h2, hr] at h4
  cases h4
  refine ⟨pre, post, ds, h1, h2, g1, g3, fun i => ?_⟩
  have h5 := mahal_component g2 (X (r.state.stamp.getD 0) - r.state.value) i
  have h6 : 0 ≤ r.cov i i := g2.posSemidef.diag_nonneg
  refine h5.trans (mul_le_mul_of_nonneg_left ?_ h6)
  have : 0 ≤ (ds.map nis).sum := List.sum_nonneg (by
    intro v hv
    obtain ⟨d, hd, rfl⟩ := List.mem_map.mp hv
    exact mahal_nonneg (g0 d hd) d.z)
  unfold truthNees at g3 ⊢
  linarith

/-- Events that follow the models have no noise. -/
theorem noise_perfect (e : EkfEnv (Vec n) U n) (X : ℝ → Vec n) : ∀ (es : List (Ev (StInp U) (StMeas (Vec n) n))) (τ : ℝ),
    PerfectEvents e X τ es → noiseEnergy e X τ es = 0
  | [], τ, h => rfl
  | .record :: es, τ, h => noise_perfect e X es τ h
  | .predict u t :: es, τ, h => by
    obtain ⟨h1, h2⟩ := h
    unfold noiseEnergy
    rw [noise_perfect e X es t h2, ← h1, sub_self, mahal_zero, add_zero]
  | .correct y u :: es, τ, h => by
    unfold PerfectEvents at h
    unfold noiseEnergy
    by_cases hlt : y.stamp - τ > 1 / 10 ^ 11
    · rw [if_pos hlt] at h ⊢
      obtain ⟨h1, h2, h3⟩ := h
      have h4 : measTerm (fun _ => X y.stamp) 0 y = 0 := by
        unfold measTerm
        simp only [h2, sub_self, mahal_zero]
      rw [noise_perfect e X es _ h3, ← h1, sub_self, mahal_zero, h4]
      norm_num
    · rw [if_neg hlt] at h ⊢
      obtain ⟨h2, h3⟩ := h
      have h4 : measTerm (fun _ => X τ) 0 y = 0 := by
        unfold measTerm
        simp only [h2, sub_self, mahal_zero]
      rw [noise_perfect e X es _ h3, h4, add_zero]

theorem nis_nonneg {ds : List CorrectDetails} (h : ∀ d ∈ ds, d.S.PosDef) : 0 ≤ (ds.map nis).sum := List.sum_nonneg (by
    intro v hv
    obtain ⟨d, hd, rfl⟩ := List.mem_map.mp hv
    exact mahal_nonneg (h d hd) d.z)

theorem perfect_prefix (e : EkfEnv (Vec n) U n) (X : ℝ → Vec n) : ∀ (pre post : List (Ev (StInp U) (StMeas (Vec n) n))) (τ : ℝ),
    PerfectEvents e X τ (pre ++ post) → PerfectEvents e X τ pre
  | [], post, τ, h => trivial
  | .record :: pre, post, τ, h => perfect_prefix e X pre post τ h
  | .predict u t :: pre, post, τ, h => ⟨h.1, perfect_prefix e X pre post t h.2⟩
  | .correct y u :: pre, post, τ, h => by
    unfold PerfectEvents
    have h' : (if y.stamp - τ > 1 / 10 ^ 11 then _ else _) := h
    by_cases hlt : y.stamp - τ > 1 / 10 ^ 11
    · rw [if_pos hlt] at h' ⊢
      exact ⟨h'.1, h'.2.1, perfect_prefix e X pre post _ h'.2.2⟩
    · rw [if_neg hlt] at h' ⊢
      exact ⟨h'.1, perfect_prefix e X pre post _ h'.2⟩

/-- Perfect data never make the estimate worse, for any list of events. -/
theorem perfect_exec (hQ : ∀ u dt, 0 < dt → (Q u dt).PosDef) (X : ℝ → Vec n) :
    ∀ (es : List (Ev (StInp U) (StMeas (Vec n) n))) (x : SWC (Vec n) n) (τ : ℝ) (rs : List (SWC (Vec n) n)), x.cov.PosDef →
      x.state.stamp = some τ → Forward τ es → PerfectEvents (linFilter A b Q chi) X τ es →
      exec (ekfApi (linFilter A b Q chi)) es x = .ok rs →
      (∀ r ∈ rs, truthNees X r ≤ truthNees X x) ∧ rs.Pairwise (fun r r' => truthNees X r' ≤ truthNees X r)
  | [], x, τ, rs, hP, hx, hf, hp, h => by
    cases h
    simp
  | .record :: es, x, τ, rs, hP, hx, hf, hp, h => by
    obtain ⟨rs', h1, h2⟩ := bind_ok (show (exec (ekfApi (linFilter A b Q chi)) es x).bind (fun rs' => .ok (x :: rs')) = .ok rs from h)
    cases h2
    obtain ⟨g1, g2⟩ := perfect_exec hQ X es x τ rs' hP hx hf hp h1
    exact ⟨List.forall_mem_cons.mpr ⟨le_refl _, g1⟩, List.pairwise_cons.mpr ⟨g1, g2⟩⟩
  | .predict u t :: es, x, τ, rs, hP, hx, hf, hp, h => by
    obtain ⟨ds, r, ⟨x', h1, -, rfl⟩, e2, e3, e4, e5⟩ := C131_events A b Q chi hQ X [.predict u t] x τ hP hx ⟨hf.1, trivial⟩
    have h' : (predictTo (ekfApi (linFilter A b Q chi)) x u t).bind (fun x' => exec (ekfApi (linFilter A b Q chi)) es x') = .ok rs := h
    rw [h1] at h'
    obtain ⟨g1, g2⟩ := perfect_exec hQ X es r t rs e2 e3 hf.2 hp.2 h'
    rw [noise_perfect _ X [.predict u t] τ ⟨hp.1, trivial⟩] at e5
    have := nis_nonneg e4
    exact ⟨fun q hq => (g1 q hq).trans (by linarith), g2⟩
  | .correct y u :: es, x, τ, rs, hP, hx, hf, hp, h => by
    obtain ⟨ds, r, ⟨x', d, ds', h1, -, -, rfl⟩, e2, e3, e4, e5⟩ :=
      C131_events A b Q chi hQ X [.correct y u] x τ hP hx ⟨hf.1, hf.2.1, trivial⟩
    have h' : ((ekfApi (linFilter A b Q chi)).correct x y u).bind (fun x' => exec (ekfApi (linFilter A b Q chi)) es x') = .ok rs := h
    rw [show (ekfApi (linFilter A b Q chi)).correct x y u = .ok r from correct_of_correctD h1] at h'
    have hp1 : PerfectEvents (linFilter A b Q chi) X τ [.correct y u] ∧
        PerfectEvents (linFilter A b Q chi) X (if y.stamp - τ > 1 / 10 ^ 11 then y.stamp else τ) es := by
      refine ⟨perfect_prefix _ X [.correct y u] es τ hp, ?_⟩
      unfold PerfectEvents at hp
      by_cases hlt : y.stamp - τ > 1 / 10 ^ 11
      · rw [if_pos hlt] at hp ⊢
        exact hp.2.2
      · rw [if_neg hlt] at hp ⊢
        exact hp.2
    obtain ⟨g1, g2⟩ := perfect_exec hQ X es r _ rs e2 e3 hf.2.2 hp1.2 h'
    rw [noise_perfect _ X _ τ hp1.1] at e5
    have := nis_nonneg e4
    exact ⟨fun q hq => (g1 q hq).trans (by linarith), g2⟩

/-- C131: with linear models and data that follow the models exactly, the normalised estimation error squared of the estimates that
`run_filter` records never increases, and never exceeds the one of the initial estimate; so the error of a component never exceeds
the multiple of its standard deviation that the initial error was within. -/
theorem C131_perfect (hQ : ∀ u dt, 0 < dt → (Q u dt).PosDef) (X : ℝ → Vec n) (x0 : SWC (Vec n) n) (t0 : ℝ) (hP : x0.cov.PosDef)
    (hx : x0.state.stamp = some t0) (ins : List (StInp U)) (meas : List (StMeas (Vec n) n))
    (hi : ins = [] ∨ ∃ u ∈ ins, t0 ≤ u.stamp) (hm : meas = [] ∨ ∃ y ∈ meas, t0 ≤ y.stamp)
    (hd : (ins.map StInp.stamp).Nodup) (hl : ∀ y ∈ meas, LinearMeas y)
    (hp : PerfectEvents (linFilter A b Q chi) X t0
      (schedule StInp.stamp StMeas.stamp true (retained StInp.stamp t0 ins) (retained StMeas.stamp t0 meas))) :
    ∃ rs, runFilter (ekfApi (linFilter A b Q chi)) x0 ins meas = .ok rs ∧
      rs.Pairwise (fun r r' => truthNees X r' ≤ truthNees X r) ∧
      ∀ r ∈ rs, truthNees X r ≤ truthNees X x0 ∧
        ∀ i, (X (r.state.stamp.getD 0) i - r.state.value i) ^ 2 ≤ r.cov i i * truthNees X x0 := by
  have hfw := run_forward (t0 := t0) hd hl
  obtain ⟨rs, e1, -, -⟩ := C88_run_filter A b Q chi hQ x0 t0 hP hx ins meas hi hm hd hl
  obtain ⟨rs', f1, f2⟩ := C88_run_filter A b Q chi hQ x0 t0 hP hx ins meas hi hm hd hl
  obtain ⟨rs1, e2, e3⟩ := C131_bound A b Q chi hQ X x0 t0 hP hx ins meas hi hm hd hl
  rw [e1] at e2
  cases e2
  have e1' := e1
  rw [C21_run_filter_schedule (ekfApi (linFilter A b Q chi)) x0 t0 hx ins meas hi hm] at e1'
  obtain ⟨g1, g2⟩ := perfect_exec A b Q chi hQ X _ x0 t0 rs hP hx hfw hp e1'
  refine ⟨rs, e1, g2, fun r hr => ⟨g1 r hr, fun i => ?_⟩⟩
  obtain ⟨j, hj, rfl⟩ := List.getElem_of_mem hr
  obtain ⟨pre, post, ds, q1, -, -, -, q2⟩ := e3 j rs[j] (List.getElem?_eq_getElem hj)
  rw [q1] at hp
  have := q2 i
  rw [noise_perfect _ X pre t0 (perfect_prefix _ X pre _ t0 hp), add_zero] at this
  exact this

/-! ### The initial guess -/

/-- How far two estimates with the same covariance are apart. -/
noncomputable def gap (r r' : SWC (Vec n) n) : ℝ := mahal r.cov (r.state.value - r'.state.value)

theorem gap_predict {x x' : SWC (Vec n) n} (hP : x.cov.PosDef) (hc : x'.cov = x.cov) {u : Inp U} {τ t : ℝ} (hq : (Q u (t - τ)).PosDef) :
    gap (linPred A b Q u τ t x) (linPred A b Q u τ t x') ≤ gap x x' := by
  have h := mahal_predict hP hq (A := A u (t - τ)) (b u (t - τ)) x'.state.value x.state.value (A u (t - τ) *ᵥ x.state.value + b u (t - τ))
  rw [sub_self, mahal_zero, add_zero] at h
  exact h

theorem gap_correct {x x' : SWC (Vec n) n} (hP : x.cov.PosDef) (hc : x'.cov = x.cov) {m : ℕ} {C : Mat m n} {R : Mat m m} (hR : R.PosDef)
    (w : Vec m) (s : ℝ) : gap (linPost C R w s x) (linPost C R w s x') ≤ gap x x' := by
  have h := marginal_correct (x := x') (y := ⟨⟨m, C *ᵥ x.state.value, some s, linMeasModel C R⟩, s, rfl⟩)
    (x' := linPost C R (C *ᵥ x.state.value) s x') (by rw [hc]; exact hP) hR rfl rfl rfl (fun _ => x.state.value) 0
  have h1 : measTerm (fun _ => x.state.value) 0 ⟨⟨m, C *ᵥ x.state.value, some s, linMeasModel C R⟩, s, rfl⟩ = 0 := by
    show mahal R (C *ᵥ x.state.value - C *ᵥ x.state.value) = 0
    rw [sub_self, mahal_zero]
  rw [h1, add_zero] at h
  have h2 : 0 ≤ mahal (C * x'.cov * Cᵀ + R) (C *ᵥ x.state.value - C *ᵥ x'.state.value) :=
    mahal_nonneg (innov_pd (by rw [hc]; exact hP.posSemidef) C hR) _
  have h3 : (linPost C R w s x).state.value - (linPost C R w s x').state.value
      = x.state.value - (linPost C R (C *ᵥ x.state.value) s x').state.value := by
    simp only [linPost, hc, mulVec_sub]
    abel
  have h4 : (linPost C R w s x).cov = (linPost C R (C *ᵥ x.state.value) s x').cov := by simp only [linPost, hc]
  unfold gap
  rw [h3, h4]
  simp only [hc] at h h2 ⊢
  linarith

/-- Two runs on the same events, from two initial values. -/
theorem forget_exec (hQ : ∀ u dt, 0 < dt → (Q u dt).PosDef) :
    ∀ (es : List (Ev (StInp U) (StMeas (Vec n) n))) (x x' : SWC (Vec n) n) (τ : ℝ), x.cov.PosDef →
      x.state.stamp = some τ → x'.state.stamp = some τ → x'.cov = x.cov → Forward τ es →
      ∃ rs rs', exec (ekfApi (linFilter A b Q chi)) es x = .ok rs ∧ exec (ekfApi (linFilter A b Q chi)) es x' = .ok rs' ∧
        List.Forall₂ (fun r r' => r.cov.PosDef ∧ r'.state.stamp = r.state.stamp ∧ r'.cov = r.cov ∧ gap r r' ≤ gap x x') rs rs' ∧
        (List.zipWith gap rs rs').Pairwise (fun g g' => g' ≤ g)
  | [], x, x', τ, hP, hx, hx', hc, hf => ⟨[], [], rfl, rfl, .nil, .nil⟩
  | .record :: es, x, x', τ, hP, hx, hx', hc, hf => by
    obtain ⟨rs, rs', h1, h2, h3, h4⟩ := forget_exec hQ es x x' τ hP hx hx' hc hf
    refine ⟨x :: rs, x' :: rs', by unfold exec; rw [h1]; rfl, by unfold exec; rw [h2]; rfl,
      .cons ⟨hP, by rw [hx, hx'], hc, le_refl _⟩ h3, ?_⟩
    refine List.pairwise_cons.mpr ⟨fun g hg => ?_, h4⟩
    obtain ⟨i, hi, rfl⟩ := List.getElem_of_mem hg
    rw [List.getElem_zipWith]
    exact ((List.forall₂_iff_get.mp h3).2 i _ _).2.2.2
  | .predict u t :: es, x, x', τ, hP, hx, hx', hc, hf => by
    obtain ⟨ht, hf⟩ := hf
    have hq := hQ ⟨u.value, some u.stamp⟩ (t - τ) (by linarith)
    have p1 := psd_step_predict A b Q chi u hx ht.le hP.posSemidef hq.posSemidef
    have p2 := psd_step_predict A b Q chi u hx' ht.le (by rw [hc]; exact hP.posSemidef) hq.posSemidef
    obtain ⟨rs, rs', h1, h2, h3, h4⟩ := forget_exec hQ es (linPred A b Q ⟨u.value, some u.stamp⟩ τ t x)
      (linPred A b Q ⟨u.value, some u.stamp⟩ τ t x') t (innov_pd hP.posSemidef _ hq) rfl rfl (by simp only [linPred, hc]) hf
    refine ⟨rs, rs', by unfold exec; rw [p1]; exact h1, by unfold exec; rw [p2]; exact h2, h3.imp fun r r' h => ?_, h4⟩
    exact ⟨h.1, h.2.1, h.2.2.1, h.2.2.2.trans (gap_predict A b Q hP hc hq)⟩
  | .correct y u :: es, x, x', τ, hP, hx, hx', hc, hf => by
    obtain ⟨ht, ⟨C, R, hR, hy⟩, hf⟩ := hf
    obtain ⟨⟨m, w, st, mdl⟩, s, hst⟩ := y
    simp only at hy C R hst ht hf hR
    subst hy hst
    by_cases hlt : s - τ > 1 / 10 ^ 11
    · rw [if_pos hlt] at hf
      have h0 : (0 : ℝ) < 1 / 10 ^ 11 := by positivity
      have hq := hQ ⟨u.value, some u.stamp⟩ (s - τ) (by linarith)
      have hP1 : (linPred A b Q ⟨u.value, some u.stamp⟩ τ s x).cov.PosDef := innov_pd hP.posSemidef _ hq
      have p1 := lin_laterD A b Q chi u C w s hR hx hP.posSemidef hq.posSemidef hlt
      have p2 := lin_laterD A b Q chi u C w s hR hx' (by rw [hc]; exact hP.posSemidef) hq.posSemidef hlt
      have hc1 : (linPred A b Q ⟨u.value, some u.stamp⟩ τ s x').cov = (linPred A b Q ⟨u.value, some u.stamp⟩ τ s x).cov := by
        simp only [linPred, hc]
      obtain ⟨rs, rs', h1, h2, h3, h4⟩ := forget_exec hQ es (linPost C R w s (linPred A b Q ⟨u.value, some u.stamp⟩ τ s x))
        (linPost C R w s (linPred A b Q ⟨u.value, some u.stamp⟩ τ s x')) s (linPost_pd hR hP1) rfl rfl
        (by simp only [linPost, hc1]) hf
      refine ⟨rs, rs', ?_, ?_, h3.imp fun r r' h => ?_, h4⟩
      · unfold exec
        rw [show (ekfApi (linFilter A b Q chi)).correct x ⟨⟨m, w, some s, linMeasModel C R⟩, s, rfl⟩ u = .ok _ from correct_of_correctD p1]
        exact h1
      · unfold exec
        rw [show (ekfApi (linFilter A b Q chi)).correct x' ⟨⟨m, w, some s, linMeasModel C R⟩, s, rfl⟩ u = .ok _ from correct_of_correctD p2]
        exact h2
      · exact ⟨h.1, h.2.1, h.2.2.1, h.2.2.2.trans ((gap_correct hP1 hc1 hR w s).trans (gap_predict A b Q hP hc hq))⟩
    · rw [if_neg hlt] at hf
      have p1 := psd_step_hereD A b Q chi (some ⟨u.value, some u.stamp⟩) C w s hR hx hP.posSemidef ht hlt
      have p2 := psd_step_hereD A b Q chi (some ⟨u.value, some u.stamp⟩) C w s hR hx' (by rw [hc]; exact hP.posSemidef) ht hlt
      obtain ⟨rs, rs', h1, h2, h3, h4⟩ := forget_exec hQ es (linPost C R w τ x) (linPost C R w τ x') τ (linPost_pd hR hP) rfl rfl
        (by simp only [linPost, hc]) hf
      refine ⟨rs, rs', ?_, ?_, h3.imp fun r r' h => ?_, h4⟩
      · unfold exec
        rw [show (ekfApi (linFilter A b Q chi)).correct x ⟨⟨m, w, some s, linMeasModel C R⟩, s, rfl⟩ u = .ok _ from correct_of_correctD p1]
        exact h1
      · unfold exec
        rw [show (ekfApi (linFilter A b Q chi)).correct x' ⟨⟨m, w, some s, linMeasModel C R⟩, s, rfl⟩ u = .ok _ from correct_of_correctD p2]
        exact h2
      · exact ⟨h.1, h.2.1, h.2.2.1, h.2.2.2.trans (gap_correct hP hc hR w τ)⟩

/-- C131: two runs of a linear filter on the same inputs and measurements from two initial values, with the same covariance, record
estimates at the same times with the same covariances; the normalised distance between them never grows, and no component of the
difference exceeds its variance times the normalised distance of the initial values: as the covariance goes to zero, so does the
influence of the initial value. -/
theorem C131_forget (hQ : ∀ u dt, 0 < dt → (Q u dt).PosDef) (x0 x0' : SWC (Vec n) n) (t0 : ℝ) (hP : x0.cov.PosDef)
    (hx : x0.state.stamp = some t0) (hx' : x0'.state.stamp = some t0) (hc : x0'.cov = x0.cov) (ins : List (StInp U))
    (meas : List (StMeas (Vec n) n)) (hi : ins = [] ∨ ∃ u ∈ ins, t0 ≤ u.stamp) (hm : meas = [] ∨ ∃ y ∈ meas, t0 ≤ y.stamp)
    (hd : (ins.map StInp.stamp).Nodup) (hl : ∀ y ∈ meas, LinearMeas y) :
    ∃ rs rs', runFilter (ekfApi (linFilter A b Q chi)) x0 ins meas = .ok rs ∧
      runFilter (ekfApi (linFilter A b Q chi)) x0' ins meas = .ok rs' ∧
      List.Forall₂ (fun r r' => r'.state.stamp = r.state.stamp ∧ r'.cov = r.cov ∧ gap r r' ≤ gap x0 x0' ∧
        ∀ i, (r.state.value i - r'.state.value i) ^ 2 ≤ r.cov i i * gap x0 x0') rs rs' ∧
      (List.zipWith gap rs rs').Pairwise (fun g g' => g' ≤ g) := by
  rw [C21_run_filter_schedule (ekfApi (linFilter A b Q chi)) x0 t0 hx ins meas hi hm,
    C21_run_filter_schedule (ekfApi (linFilter A b Q chi)) x0' t0 hx' ins meas hi hm]
  obtain ⟨rs, rs', h1, h2, h3, h4⟩ := forget_exec A b Q chi hQ _ x0 x0' t0 hP hx hx' hc (run_forward (t0 := t0) hd hl)
  refine ⟨rs, rs', h1, h2, h3.imp fun r r' h => ⟨h.2.1, h.2.2.1, h.2.2.2, fun i => ?_⟩, h4⟩
  exact (mahal_component h.1 (r.state.value - r'.state.value) i).trans (mul_le_mul_of_nonneg_left h.2.2.2 h.1.posSemidef.diag_nonneg)

end run

/-! ### Examples -/

/-- A perfect measurement at `1/2` of a position that grows with speed 1. -/
noncomputable def exMeas131 : StMeas (Vec 1) 1 := ⟨linMeas (1 : Mat 1 1) 1 (fun _ => 1 / 2) (some (1 / 2)), 1 / 2, rfl⟩

theorem ex131_events (y : StMeas (Vec 1) 1) (hy : y.stamp = 1 / 2) :
    schedule StInp.stamp StMeas.stamp true (retained StInp.stamp 0 [(⟨1, 0⟩ : StInp (Vec 1)), ⟨1, 1⟩, ⟨0, 2⟩]) (retained StMeas.stamp 0 [y])
      = [Ev.correct y ⟨1, 0⟩, Ev.record, Ev.predict ⟨1, 0⟩ 1, Ev.record, Ev.predict ⟨1, 1⟩ 2] := by
  classical
  have e1 : retained (StInp.stamp (U := Vec 1)) 0 [⟨1, 0⟩, ⟨1, 1⟩, ⟨0, 2⟩] = [⟨1, 0⟩, ⟨1, 1⟩, ⟨0, 2⟩] := by
    unfold retained
    rw [sortByStamp_of_sorted _ _ (by simp [TimeSorted]), List.filter_eq_self]
    intro x hx
    simp at hx
    rcases hx with rfl | rfl | rfl <;> simp
  have e2 : retained StMeas.stamp 0 [y] = [y] := by
    unfold retained
    rw [sortByStamp_of_sorted _ _ (by simp [TimeSorted]), List.filter_eq_self]
    intro x hx
    rw [List.mem_singleton.mp hx]
    simp [hy]
  rw [e1, e2]
  have h1 : y.stamp < 1 := by rw [hy]; norm_num
  simp [schedule, h1]

/-- The hypotheses of `C131_perfect` are met by a run with three inputs and a measurement, from an initial value that is off by five
standard deviations: the errors recorded stay within five standard deviations. -/
example : ∃ rs, runFilter (ekfApi (linFilter (fun (_ : Inp (Vec 1)) _ => (1 : Mat 1 1)) (fun u dt => dt • u.value)
    (fun _ _ => (1 : Mat 1 1)) (fun _ => 0))) ⟨⟨fun _ => 5, some 0⟩, 1⟩ [⟨1, 0⟩, ⟨1, 1⟩, ⟨0, 2⟩] [exMeas131] = .ok rs ∧
    ∀ r ∈ rs, (r.state.stamp.getD 0 - r.state.value 0) ^ 2 ≤ r.cov 0 0 * 5 ^ 2 := by
  have hst : exMeas131.stamp = 1 / 2 := rfl
  obtain ⟨rs, h1, -, h3⟩ := C131_perfect (n := 1) (fun (_ : Inp (Vec 1)) _ => (1 : Mat 1 1)) (fun u dt => dt • u.value)
    (fun _ _ => (1 : Mat 1 1)) (fun _ => 0) (fun u dt hdt => Matrix.PosDef.one) (fun t _ => t) ⟨⟨fun _ => 5, some 0⟩, 1⟩ 0
    Matrix.PosDef.one rfl [⟨1, 0⟩, ⟨1, 1⟩, ⟨0, 2⟩] [exMeas131]
    (.inr ⟨⟨1, 0⟩, by simp, le_refl _⟩) (.inr ⟨exMeas131, by simp, by norm_num [exMeas131]⟩) (by norm_num)
    (fun y hy => by
      rw [List.mem_singleton.mp hy]
      exact ⟨(1 : Mat 1 1), (1 : Mat 1 1), Matrix.PosDef.one, rfl⟩)
    (by
      rw [ex131_events exMeas131 hst]
      have ev : ∀ (u : Inp (Vec 1)) (τ t : ℝ), u.value = 1 → (fun _ => t) = (1 : Mat 1 1) *ᵥ (fun _ => τ) + (t - τ) • u.value := by
        intro u τ t hu
        rw [one_mulVec, hu]
        funext i
        simp
      unfold PerfectEvents
      rw [if_pos (by rw [hst]; norm_num)]
      refine ⟨ev _ _ _ rfl, ?_, ev _ _ _ rfl, ev _ _ _ rfl, trivial⟩
      show some ((1 : Mat 1 1) *ᵥ (fun _ => exMeas131.stamp)) = some (fun _ => 1 / 2)
      rw [one_mulVec]
      rfl)
  refine ⟨rs, h1, fun r hr => ?_⟩
  have h := (h3 r hr).2 0
  have e : truthNees (fun t _ => t) (⟨⟨fun _ => 5, some 0⟩, 1⟩ : SWC (Vec 1) 1) = 5 ^ 2 := by
    simp [truthNees, mahal, dotProduct]
    norm_num
  rw [e] at h
  exact h

/-- The hypotheses of `C131_bound` are met with a measurement that is off by `5/2`: its noise is in the bound. -/
example : ∃ rs, runFilter (ekfApi (linFilter (fun (_ : Inp (Vec 1)) _ => (1 : Mat 1 1)) (fun u dt => dt • u.value)
    (fun _ _ => (1 : Mat 1 1)) (fun _ => 0))) ⟨⟨0, some 0⟩, 1⟩ [⟨1, 0⟩, ⟨1, 1⟩, ⟨0, 2⟩] [exMeas88] = .ok rs ∧
    noiseEnergy (linFilter (fun (_ : Inp (Vec 1)) _ => (1 : Mat 1 1)) (fun u dt => dt • u.value) (fun _ _ => (1 : Mat 1 1)) (fun _ => 0))
      (fun t _ => t) 0 [Ev.correct exMeas88 ⟨1, 0⟩] = (5 / 2) ^ 2 := by
  obtain ⟨rs, h1, -⟩ := C131_bound (n := 1) (fun (_ : Inp (Vec 1)) _ => (1 : Mat 1 1)) (fun u dt => dt • u.value)
    (fun _ _ => (1 : Mat 1 1)) (fun _ => 0) (fun u dt hdt => Matrix.PosDef.one) (fun t _ => t) ⟨⟨0, some 0⟩, 1⟩ 0
    Matrix.PosDef.one rfl [⟨1, 0⟩, ⟨1, 1⟩, ⟨0, 2⟩] [exMeas88]
    (.inr ⟨⟨1, 0⟩, by simp, le_refl _⟩) (.inr ⟨exMeas88, by simp, by norm_num [exMeas88]⟩) (by norm_num)
    (fun y hy => by
      rw [List.mem_singleton.mp hy]
      exact ⟨(1 : Mat 1 1), (1 : Mat 1 1), Matrix.PosDef.one, rfl⟩)
  refine ⟨rs, h1, ?_⟩
  have hst : exMeas88.stamp = 1 / 2 := rfl
  unfold noiseEnergy noiseEnergy
  rw [if_pos (by rw [hst]; norm_num)]
  have e1 : mahal (1 : Mat 1 1) ((fun _ => (1 / 2 : ℝ)) - ((1 : Mat 1 1) *ᵥ (fun _ => 0) + (1 / 2 - 0 : ℝ) • (1 : Vec 1))) = 0 := by
    have : (fun _ => (1 / 2 : ℝ)) - ((1 : Mat 1 1) *ᵥ (fun _ => 0) + (1 / 2 - 0 : ℝ) • (1 : Vec 1)) = 0 := by
      rw [one_mulVec]
      funext i
      simp
    rw [this, mahal_zero]
  have e2 : mahal (1 : Mat 1 1) ((fun _ => (3 : ℝ)) - (1 : Mat 1 1) *ᵥ (fun _ => (1 / 2 : ℝ))) = (5 / 2) ^ 2 := by
    rw [one_mulVec]
    simp [mahal, dotProduct]
    norm_num
  refine (congrArg₂ (fun a c : ℝ => a + (c + 0)) e1 e2).trans ?_
  norm_num

/-- The hypotheses of `C131_forget` are met by two runs from initial values that are five standard deviations apart. -/
example : ∃ rs rs', runFilter (ekfApi (linFilter (fun (_ : Inp (Vec 1)) _ => (1 : Mat 1 1)) (fun u dt => dt • u.value)
    (fun _ _ => (1 : Mat 1 1)) (fun _ => 0))) ⟨⟨0, some 0⟩, 1⟩ [⟨1, 0⟩, ⟨1, 1⟩, ⟨0, 2⟩] [exMeas88] = .ok rs ∧
    runFilter (ekfApi (linFilter (fun (_ : Inp (Vec 1)) _ => (1 : Mat 1 1)) (fun u dt => dt • u.value)
    (fun _ _ => (1 : Mat 1 1)) (fun _ => 0))) ⟨⟨fun _ => 5, some 0⟩, 1⟩ [⟨1, 0⟩, ⟨1, 1⟩, ⟨0, 2⟩] [exMeas88] = .ok rs' ∧
    List.Forall₂ (fun r r' => (r.state.value 0 - r'.state.value 0) ^ 2 ≤ r.cov 0 0 * 5 ^ 2) rs rs' := by
  obtain ⟨rs, rs', h1, h2, h3, -⟩ := C131_forget (n := 1) (fun (_ : Inp (Vec 1)) _ => (1 : Mat 1 1)) (fun u dt => dt • u.value)
    (fun _ _ => (1 : Mat 1 1)) (fun _ => 0) (fun u dt hdt => Matrix.PosDef.one) ⟨⟨0, some 0⟩, 1⟩ ⟨⟨fun _ => 5, some 0⟩, 1⟩ 0
    Matrix.PosDef.one rfl rfl rfl [⟨1, 0⟩, ⟨1, 1⟩, ⟨0, 2⟩] [exMeas88]
    (.inr ⟨⟨1, 0⟩, by simp, le_refl _⟩) (.inr ⟨exMeas88, by simp, by norm_num [exMeas88]⟩) (by norm_num)
    (fun y hy => by
      rw [List.mem_singleton.mp hy]
      exact ⟨(1 : Mat 1 1), (1 : Mat 1 1), Matrix.PosDef.one, rfl⟩)
  refine ⟨rs, rs', h1, h2, h3.imp fun r r' h => ?_⟩
  have h := h.2.2.2 0
  have e : gap (⟨⟨0, some 0⟩, 1⟩ : SWC (Vec 1) 1) ⟨⟨fun _ => 5, some 0⟩, 1⟩ = 5 ^ 2 := by
    simp [gap, mahal, dotProduct]
    norm_num
  rw [e] at h
  exact h

end Verif
