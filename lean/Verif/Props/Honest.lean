import Verif.Props.AllFilters
import Verif.Lemmas.FilterSim
import Verif.Lemmas.Moments
import Verif.Props.Results
import Mathlib.MeasureTheory.Integral.Bochner.SumMeasure

/-!
C105: on a linear system with white noise of the modelled covariances, the covariance that `run_filter` reports is the covariance of
the error of the estimate it reports.
-/

set_option linter.unusedSectionVars false
set_option linter.unusedVariables false

namespace Verif

open Matrix MeasureTheory

variable {Ω : Type} {n : ℕ} {U : Type}

/-! ### Specification: random logs and the noises in them -/

/-- A linear measurement `y = C x + noise` whose value is random; its model holds `C` and the covariance `R`. -/
structure RMeas (Ω : Type) (n : ℕ) where
  m : ℕ
  C : Mat m n
  R : Mat m m
  stamp : ℝ
  value : Ω → Vec m

/-- The measurement object in the outcome `ω`. -/
def RMeas.at (y : RMeas Ω n) (ω : Ω) : StMeas (Vec n) n := ⟨linMeas y.C y.R (y.value ω) (some y.stamp), y.stamp, rfl⟩

/-- A noise vector and the covariance that the model gives for it. -/
structure Noise (Ω : Type) where
  dim : ℕ
  val : Ω → Vec dim
  cov : Mat dim dim

/-- The process noise from `τ` to `t` on the true trajectory `X`: what the model `A x + b` does not explain. -/
def procNoise (A : Inp U → ℝ → Mat n n) (b : Inp U → ℝ → Vec n) (Q : Inp U → ℝ → Mat n n) (X : ℝ → Ω → Vec n) (u : StInp U)
    (τ t : ℝ) : Noise Ω :=
  ⟨n, fun ω => X t ω - (A ⟨u.value, some u.stamp⟩ (t - τ) *ᵥ X τ ω + b ⟨u.value, some u.stamp⟩ (t - τ)),
    Q ⟨u.value, some u.stamp⟩ (t - τ)⟩

/-- The noise of a measurement of the true state at time `t`. -/
def measNoise (X : ℝ → Ω → Vec n) (t : ℝ) (y : RMeas Ω n) : Noise Ω := ⟨y.m, fun ω => y.value ω - y.C *ᵥ X t ω, y.R⟩

open Classical in
/-- The noises of a list of events, from time `τ` on: a process noise for every step in time, a measurement noise for every
measurement. (A measurement later than the estimate by at most `1e-11` is fused where the estimate is.) -/
noncomputable def noises (A : Inp U → ℝ → Mat n n) (b : Inp U → ℝ → Vec n) (Q : Inp U → ℝ → Mat n n) (X : ℝ → Ω → Vec n) :
    ℝ → List (Ev (StInp U) (RMeas Ω n)) → List (Noise Ω)
  | _, [] => []
  | τ, .record :: es => noises A b Q X τ es
  | τ, .predict u t :: es => procNoise A b Q X u τ t :: noises A b Q X t es
  | τ, .correct y u :: es =>
    if y.stamp - τ > 1 / 10 ^ 11 then
      procNoise A b Q X u τ y.stamp :: measNoise X y.stamp y :: noises A b Q X y.stamp es
    else measNoise X τ y :: noises A b Q X τ es

/-- A relation between actual and modelled covariances that is kept by linear maps and by adding independent terms. -/
structure CovRel where
  rel : ∀ {m : ℕ}, Mat m m → Mat m m → Prop
  conj : ∀ {m k : ℕ} (A : Mat k m) {S P : Mat m m}, rel S P → rel (A * S * Aᵀ) (A * P * Aᵀ)
  add : ∀ {m : ℕ} {S P S' P' : Mat m m}, rel S P → rel S' P' → rel (S + S') (P + P')

/-- The model has the actual covariance. -/
def CovRel.exact : CovRel where
  rel S P := S = P
  conj A _ _ h := by rw [h]
  add h h' := by rw [h, h']

/-- The model overstates the covariance: `P - S` is positive semidefinite. -/
def CovRel.over : CovRel where
  rel S P := (P - S).PosSemidef
  conj A _ _ h := by
    have := psd_conj h A
    rwa [Matrix.mul_sub, Matrix.sub_mul] at this
  add h h' := by
    have := psd_add h h'
    rwa [sub_add_sub_comm] at this

/-- The model understates the covariance: `S - P` is positive semidefinite. -/
def CovRel.under : CovRel where
  rel S P := (S - P).PosSemidef
  conj A _ _ h := by
    have := psd_conj h A
    rwa [Matrix.mul_sub, Matrix.sub_mul] at this
  add h h' := by
    have := psd_add h h'
    rwa [sub_add_sub_comm] at this

variable [MeasurableSpace Ω]

/-- White noise: square integrable, of mean zero, of covariances related to those of the models, and uncorrelated between different
entries of the list. -/
structure White (μ : Measure Ω) (rel : CovRel) (l : List (Noise Ω)) : Prop where
  sq : ∀ η ∈ l, SqInt μ η.val
  mean : ∀ η ∈ l, rvMean μ η.val = 0
  cov : ∀ η ∈ l, rel.rel (rvCross μ η.val η.val) η.cov
  uncorr : l.Pairwise fun η ζ => rvCross μ η.val ζ.val = 0

/-- The estimate `r` carries the same covariance and stamp in every outcome; its error, the true state at its stamp minus its value,
has mean zero, and the covariance of the error is in the relation `rel` to the covariance of `r`. -/
structure Honest (μ : Measure Ω) (rel : CovRel) (X : ℝ → Ω → Vec n) (r : Ω → SWC (Vec n) n) (t : ℝ) (P : Mat n n) : Prop where
  stamp : ∀ ω, (r ω).state.stamp = some t
  cov : ∀ ω, (r ω).cov = P
  psd : P.PosSemidef
  sq : SqInt μ (fun ω => X t ω - (r ω).state.value)
  mean : rvMean μ (fun ω => X t ω - (r ω).state.value) = 0
  error : rel.rel (rvCross μ (fun ω => X t ω - (r ω).state.value) (fun ω => X t ω - (r ω).state.value)) P

/-! ### Single steps of the filter, for singular covariances too -/

section steps
variable (A : Inp U → ℝ → Mat n n) (b : Inp U → ℝ → Vec n) (Q : Inp U → ℝ → Mat n n) (chi : ℕ → ℝ)

theorem psd_step_predict {x : SWC (Vec n) n} {τ t : ℝ} (u : StInp U) (hx : x.state.stamp = some τ) (ht : τ ≤ t)
    (hP : x.cov.PosSemidef) (hQ : (Q ⟨u.value, some u.stamp⟩ (t - τ)).PosSemidef) :
    predictTo (ekfApi (linFilter A b Q chi)) x u t = .ok (linPred A b Q ⟨u.value, some u.stamp⟩ τ t x) := by
  have hd : 0 ≤ t - τ := by linarith
  have hpsd : (linPred A b Q ⟨u.value, some u.stamp⟩ τ t x).cov.PosSemidef := psd_add (psd_conj hP _) hQ
  have hs := symmetrize_eq (psd_symm hpsd)
  unfold predictTo
  rw [show (ekfApi (linFilter A b Q chi)).xstamp x = some τ from hx]
  show (linFilter A b Q chi).predict x (some ⟨u.value, some u.stamp⟩) (some (t - τ)) none = _
  rw [predict_some_some _ x _ τ (t - τ) none hx hd]
  congr 1
  show (⟨⟨A ⟨u.value, some u.stamp⟩ (t - τ) *ᵥ x.state.value + b ⟨u.value, some u.stamp⟩ (t - τ), some (τ + (t - τ))⟩,
    symmetrize (A ⟨u.value, some u.stamp⟩ (t - τ) * x.cov * (A ⟨u.value, some u.stamp⟩ (t - τ))ᵀ
      + Q ⟨u.value, some u.stamp⟩ (t - τ))⟩ : SWC (Vec n) n) = _
  rw [show τ + (t - τ) = t by ring]
  exact congrArg (SWC.mk _) hs

theorem psd_step_hereD {x : SWC (Vec n) n} {τ : ℝ} (u : Option (Inp U)) {m : ℕ} (C : Mat m n) {R : Mat m m} (v : Vec m) (s : ℝ)
    (hR : R.PosDef) (hx : x.state.stamp = some τ) (hP : x.cov.PosSemidef) (h1 : τ ≤ s) (h2 : ¬ s - τ > 1 / 10 ^ 11) :
    (linFilter A b Q chi).correctD x (linMeas C R v (some s)) u none none
      = .ok (linPost C R v τ x, some ⟨m, v - C *ᵥ x.state.value, C * x.cov * Cᵀ + R, false⟩) := by
  have hpsd := kCov_psd hP C hR
  rw [C06_no_predict (linFilter A b Q chi) x (linMeas C R v (some s)) u none none τ s hx rfl
    (le_trans (by norm_num) (sub_nonneg.mpr h1)) (not_lt.mp h2)]
  have hd : (innovCov x (linMeas C R v (some s)) none).det ≠ 0 := pd_det (innov_pd hP C hR)
  have hf := fuse_noreject (linFilter A b Q chi) x (linMeas C R v (some s)) none (C *ᵥ x.state.value) rfl hd
  show (linFilter A b Q chi).fuse x (linMeas C R v (some s)) none false = _
  rw [hf]
  congr 1
  refine Prod.ext ?_ rfl
  obtain ⟨⟨w, s'⟩, P⟩ := x
  simp only at hx
  subst hx
  exact congrArg (SWC.mk _) (symmetrize_eq (psd_symm hpsd))

theorem psd_step_here {x : SWC (Vec n) n} {τ : ℝ} (u : Option (Inp U)) (y : RMeas Ω n) (ω : Ω)
    (hR : y.R.PosDef) (hx : x.state.stamp = some τ) (hP : x.cov.PosSemidef) (h1 : τ ≤ y.stamp) (h2 : ¬ y.stamp - τ > 1 / 10 ^ 11) :
    (linFilter A b Q chi).correct x (y.at ω).meas u none none = .ok (linPost y.C y.R (y.value ω) τ x) := by
  unfold EkfEnv.correct
  show ((linFilter A b Q chi).correctD x (linMeas y.C y.R (y.value ω) (some y.stamp)) u none none).map Prod.fst = _
  rw [psd_step_hereD A b Q chi u y.C (y.value ω) y.stamp hR hx hP h1 h2]
  rfl

theorem psd_step_later {x : SWC (Vec n) n} {τ : ℝ} (u : StInp U) (y : RMeas Ω n) (ω : Ω) (hR : y.R.PosDef)
    (hx : x.state.stamp = some τ) (hP : x.cov.PosSemidef)
    (hQ : (Q ⟨u.value, some u.stamp⟩ (y.stamp - τ)).PosSemidef) (hlt : y.stamp - τ > 1 / 10 ^ 11) :
    (linFilter A b Q chi).correct x (y.at ω).meas (some ⟨u.value, some u.stamp⟩) none none
      = .ok (linPost y.C y.R (y.value ω) y.stamp (linPred A b Q ⟨u.value, some u.stamp⟩ τ y.stamp x)) := by
  have h0 : (0 : ℝ) < 1 / 10 ^ 11 := by positivity
  have hp := psd_step_predict A b Q chi u hx (by linarith : τ ≤ y.stamp) hP hQ
  unfold predictTo at hp
  rw [show (ekfApi (linFilter A b Q chi)).xstamp x = some τ from hx] at hp
  rw [C02_correct_eq_predict_then_correct (linFilter A b Q chi) x (y.at ω).meas _ none none τ y.stamp hx rfl hlt]
  have hp' : (linFilter A b Q chi).predict x (some ⟨u.value, some u.stamp⟩) (some (y.stamp - τ)) none
      = .ok (linPred A b Q ⟨u.value, some u.stamp⟩ τ y.stamp x) := hp
  rw [hp']
  exact psd_step_here A b Q chi none y ω hR rfl (psd_add (psd_conj hP _) hQ) (le_refl _)
    (by rw [sub_self]; exact not_lt.mpr (by positivity))

end steps

/-! ### What a step does to the error -/

section moments
variable {μ : Measure Ω} {rel : CovRel}

theorem White.tail {η : Noise Ω} {l : List (Noise Ω)} (h : White μ rel (η :: l)) : White μ rel l :=
  ⟨fun a ha => h.sq a (by simp [ha]), fun a ha => h.mean a (by simp [ha]), fun a ha => h.cov a (by simp [ha]),
    (List.pairwise_cons.mp h.uncorr).2⟩

/-- Replace the first two noises by a linear combination of them. -/
theorem White.comb [IsProbabilityMeasure μ] {η ζ : Noise Ω} {l : List (Noise Ω)} (h : White μ rel (η :: ζ :: l)) {d : ℕ}
    (F : Mat d η.dim) (G : Mat d ζ.dim) {P : Mat d d} (hP : P = F * η.cov * Fᵀ + G * ζ.cov * Gᵀ) {e : Ω → Vec d}
    (he : e = fun ω => F *ᵥ η.val ω + G *ᵥ ζ.val ω) : White μ rel (⟨d, e, P⟩ :: l) := by
  subst he hP
  have s1 := h.sq η (by simp)
  have s2 := h.sq ζ (by simp)
  have u1 := List.pairwise_cons.mp h.uncorr
  have u2 := List.pairwise_cons.mp u1.2
  refine ⟨?_, ?_, ?_, ?_⟩
  · intro a ha
    rcases List.mem_cons.mp ha with rfl | ha
    · exact (s1.mulVec F).add (s2.mulVec G)
    · exact h.sq a (by simp [ha])
  · intro a ha
    rcases List.mem_cons.mp ha with rfl | ha
    · show rvMean μ (fun ω => F *ᵥ η.val ω + G *ᵥ ζ.val ω) = 0
      rw [rvMean_add (s1.mulVec F) (s2.mulVec G), rvMean_mulVec s1, rvMean_mulVec s2, h.mean η (by simp), h.mean ζ (by simp)]
      simp
    · exact h.mean a (by simp [ha])
  · intro a ha
    rcases List.mem_cons.mp ha with rfl | ha
    · show rel.rel (rvCross μ (fun ω => F *ᵥ η.val ω + G *ᵥ ζ.val ω) (fun ω => F *ᵥ η.val ω + G *ᵥ ζ.val ω)) _
      rw [rvCross_comb s1 s2 (u1.1 ζ (by simp))]
      exact rel.add (rel.conj F (h.cov η (by simp))) (rel.conj G (h.cov ζ (by simp)))
    · exact h.cov a (by simp [ha])
  · refine List.pairwise_cons.mpr ⟨fun a ha => ?_, u2.2⟩
    have s3 := h.sq a (by simp [ha])
    show rvCross μ (fun ω => F *ᵥ η.val ω + G *ᵥ ζ.val ω) a.val = 0
    rw [rvCross_add_left (s1.mulVec F) (s2.mulVec G) s3, rvCross_mulVec_left s1 s3, rvCross_mulVec_left s2 s3,
      u1.1 a (by simp [ha]), u2.1 a ha]
    simp

variable (A : Inp U → ℝ → Mat n n) (b : Inp U → ℝ → Vec n) (Q : Inp U → ℝ → Mat n n) (X : ℝ → Ω → Vec n)

theorem white_predict [IsProbabilityMeasure μ] {x : Ω → SWC (Vec n) n} {P : Mat n n} (hc : ∀ ω, (x ω).cov = P) {τ t : ℝ} {u : StInp U}
    {l : List (Noise Ω)}
    (h : White μ rel (⟨n, fun ω => X τ ω - (x ω).state.value, P⟩ :: procNoise A b Q X u τ t :: l)) :
    White μ rel (⟨n, fun ω => X t ω - (linPred A b Q ⟨u.value, some u.stamp⟩ τ t (x ω)).state.value,
      A ⟨u.value, some u.stamp⟩ (t - τ) * P * (A ⟨u.value, some u.stamp⟩ (t - τ))ᵀ + Q ⟨u.value, some u.stamp⟩ (t - τ)⟩ :: l) := by
  refine h.comb (A ⟨u.value, some u.stamp⟩ (t - τ)) (1 : Mat n n) ?_ ?_
  · show A ⟨u.value, some u.stamp⟩ (t - τ) * P * (A ⟨u.value, some u.stamp⟩ (t - τ))ᵀ + Q ⟨u.value, some u.stamp⟩ (t - τ)
      = A ⟨u.value, some u.stamp⟩ (t - τ) * P * (A ⟨u.value, some u.stamp⟩ (t - τ))ᵀ
        + (1 : Mat n n) * Q ⟨u.value, some u.stamp⟩ (t - τ) * (1 : Mat n n)ᵀ
    rw [transpose_one, Matrix.mul_one, Matrix.one_mul]
  · funext ω
    show X t ω - (A ⟨u.value, some u.stamp⟩ (t - τ) *ᵥ (x ω).state.value + b ⟨u.value, some u.stamp⟩ (t - τ))
      = A ⟨u.value, some u.stamp⟩ (t - τ) *ᵥ (X τ ω - (x ω).state.value)
        + (1 : Mat n n) *ᵥ (X t ω - (A ⟨u.value, some u.stamp⟩ (t - τ) *ᵥ X τ ω + b ⟨u.value, some u.stamp⟩ (t - τ)))
    rw [one_mulVec, mulVec_sub]
    abel

theorem white_correct [IsProbabilityMeasure μ] {x : Ω → SWC (Vec n) n} {P : Mat n n} (hP : P.PosSemidef) (hc : ∀ ω, (x ω).cov = P)
    {τ : ℝ} {y : RMeas Ω n} (hR : y.R.PosDef) {l : List (Noise Ω)} 
    (h : White μ rel (⟨n, fun ω => X τ ω - (x ω).state.value, P⟩ :: measNoise X τ y :: l)) :
    White μ rel (⟨n, fun ω => X τ ω - (linPost y.C y.R (y.value ω) τ (x ω)).state.value, kCov P y.C y.R⟩ :: l) := by
  have hS := pd_det (innov_pd hP y.C hR)
  refine h.comb (1 - kGain P y.C y.R * y.C) (-kGain P y.C y.R) ?_ ?_
  · show (1 - kGain P y.C y.R * y.C) * P = (1 - kGain P y.C y.R * y.C) * P * (1 - kGain P y.C y.R * y.C)ᵀ
      + -kGain P y.C y.R * y.R * (-kGain P y.C y.R)ᵀ
    rw [transpose_neg, Matrix.neg_mul, Matrix.neg_mul, Matrix.mul_neg, neg_neg]
    exact joseph P y.C y.R (psd_symm hP) _ (kGain_mul P y.C y.R hS)
  · funext ω
    show X τ ω - ((x ω).state.value + kGain (x ω).cov y.C y.R *ᵥ (y.value ω - y.C *ᵥ (x ω).state.value))
      = (1 - kGain P y.C y.R * y.C) *ᵥ (X τ ω - (x ω).state.value) + (-kGain P y.C y.R) *ᵥ (y.value ω - y.C *ᵥ X τ ω)
    rw [hc]
    simp only [sub_mulVec, one_mulVec, neg_mulVec, mulVec_sub, ← mulVec_mulVec]
    abel

end moments

/-! ### Whole runs -/

/-- The events go forward in time, and the noise covariances of the measurements are positive definite. -/
def ForwardR : ℝ → List (Ev (StInp U) (RMeas Ω n)) → Prop
  | _, [] => True
  | τ, .record :: es => ForwardR τ es
  | τ, .predict _ t :: es => τ ≤ t ∧ ForwardR t es
  | τ, .correct y _ :: es => τ ≤ y.stamp ∧ y.R.PosDef ∧ ForwardR (if y.stamp - τ > 1 / 10 ^ 11 then y.stamp else τ) es

/-- The filter in the outcome `ω`, fed with random measurements. -/
noncomputable def randApi (e : EkfEnv (Vec n) U n) (ω : Ω) : FilterApi (SWC (Vec n) n) (StInp U) (RMeas Ω n) where
  correct x y u := (ekfApi e).correct x (y.at ω) u
  predict := (ekfApi e).predict
  xstamp := (ekfApi e).xstamp
  istamp := (ekfApi e).istamp
  ystamp := RMeas.stamp

theorem exRel_eq {α : Type} {a b : Except Err α} (h : ExRel Eq a b) : a = b := by
  cases a <;> cases b
  · exact congrArg _ h
  · exact h.elim
  · exact h.elim
  · exact congrArg _ h

/-- Running the filter on the data of the outcome `ω`. -/
theorem run_rand (e : EkfEnv (Vec n) U n) (ω : Ω) (x0 : SWC (Vec n) n) (ins : List (StInp U)) (meas : List (RMeas Ω n)) :
    runFilter (ekfApi e) x0 ins (meas.map (·.at ω)) = runFilter (randApi e ω) x0 ins meas := by
  have hsim : FilterSim (randApi e ω) (ekfApi e) 0 Eq Eq (fun y y' => y' = y.at ω) := by
    refine ⟨?_, ?_, ?_, ?_, ?_⟩
    · rintro x _ rfl
      show x.state.stamp = x.state.stamp.map (· + 0)
      cases x.state.stamp <;> simp
    · rintro u _ rfl; exact (add_zero _).symm
    · rintro y _ rfl; exact (add_zero _).symm
    · rintro x _ u _ dt rfl rfl
      show ExRel Eq ((ekfApi e).predict x u dt) ((ekfApi e).predict x u dt)
      cases (ekfApi e).predict x u dt <;> rfl
    · rintro x _ u _ y _ rfl rfl rfl
      show ExRel Eq ((ekfApi e).correct x (y.at ω) u) ((ekfApi e).correct x (y.at ω) u)
      cases (ekfApi e).correct x (y.at ω) u <;> rfl
  have h := hsim.runFilter (x0 := x0) (x0' := x0) rfl (ins := ins) (ins' := ins)
    (List.forall₂_same.mpr fun _ _ => rfl) (meas := meas) (meas' := meas.map (·.at ω))
    (by
      rw [List.forall₂_map_right_iff]
      exact List.forall₂_same.mpr fun _ _ => rfl)
  refine (exRel_eq (h.mono fun a b hab => ?_)).symm
  exact List.forall₂_eq_eq_eq ▸ hab

section run
variable {μ : Measure Ω} [IsProbabilityMeasure μ] (rel : CovRel)
variable (A : Inp U → ℝ → Mat n n) (b : Inp U → ℝ → Vec n) (Q : Inp U → ℝ → Mat n n) (chi : ℕ → ℝ) (X : ℝ → Ω → Vec n)

theorem honest_events (hQ : ∀ u dt, 0 ≤ dt → (Q u dt).PosSemidef) :
    ∀ (es : List (Ev (StInp U) (RMeas Ω n))) (x : Ω → SWC (Vec n) n) (P : Mat n n) (τ : ℝ), P.PosSemidef →
      (∀ ω, (x ω).cov = P) → (∀ ω, (x ω).state.stamp = some τ) → ForwardR τ es →
      White μ rel (⟨n, fun ω => X τ ω - (x ω).state.value, P⟩ :: noises A b Q X τ es) →
      ∃ rs : List (Ω → SWC (Vec n) n), (∀ ω, exec (randApi (linFilter A b Q chi) ω) es (x ω) = .ok (rs.map (· ω))) ∧
        rs.length = recorded es ∧ ∀ r ∈ rs, ∃ t P, Honest μ rel X r t P
  | [], x, P, τ, hP, hc, hs, hf, hw => ⟨[], fun ω => rfl, rfl, by simp⟩
  | .record :: es, x, P, τ, hP, hc, hs, hf, hw => by
    obtain ⟨rs, h1, h2, h3⟩ := honest_events hQ es x P τ hP hc hs hf hw
    refine ⟨x :: rs, fun ω => ?_, by simp [recorded, h2], ?_⟩
    · unfold exec; rw [h1 ω]; rfl
    · intro r hr
      rcases List.mem_cons.mp hr with rfl | hr
      · exact ⟨τ, P, hs, hc, hP, hw.sq ⟨n, fun ω => X τ ω - (r ω).state.value, P⟩ (by simp),
          hw.mean ⟨n, fun ω => X τ ω - (r ω).state.value, P⟩ (by simp),
          hw.cov ⟨n, fun ω => X τ ω - (r ω).state.value, P⟩ (by simp)⟩
      · exact h3 r hr
  | .predict u t :: es, x, P, τ, hP, hc, hs, hf, hw => by
    have hq := hQ ⟨u.value, some u.stamp⟩ (t - τ) (by linarith [hf.1])
    obtain ⟨rs, h1, h2, h3⟩ := honest_events hQ es (fun ω => linPred A b Q ⟨u.value, some u.stamp⟩ τ t (x ω)) _ t
      (psd_add (psd_conj hP _) hq) (fun ω => by simp only [linPred, hc]) (fun ω => rfl) hf.2
      (white_predict A b Q X hc hw)
    refine ⟨rs, fun ω => ?_, h2, h3⟩
    unfold exec
    have := psd_step_predict A b Q chi u (hs ω) hf.1 (by rw [hc]; exact hP) hq
    rw [show predictTo (randApi (linFilter A b Q chi) ω) (x ω) u t = _ from this]
    exact h1 ω
  | .correct y u :: es, x, P, τ, hP, hc, hs, hf, hw => by
    obtain ⟨ht, hR, hf⟩ := hf
    unfold noises at hw
    by_cases hlt : y.stamp - τ > 1 / 10 ^ 11
    · rw [if_pos hlt] at hf hw
      have h0 : (0 : ℝ) < 1 / 10 ^ 11 := by positivity
      have hq := hQ ⟨u.value, some u.stamp⟩ (y.stamp - τ) (by linarith)
      have hP1 := psd_add (psd_conj hP (A ⟨u.value, some u.stamp⟩ (y.stamp - τ))) hq
      obtain ⟨rs, h1, h2, h3⟩ := honest_events hQ es
        (fun ω => linPost y.C y.R (y.value ω) y.stamp (linPred A b Q ⟨u.value, some u.stamp⟩ τ y.stamp (x ω))) _ y.stamp
        (kCov_psd hP1 y.C hR) (fun ω => by simp only [linPost, linPred, hc]) (fun ω => rfl) hf
        (white_correct X hP1 (fun ω => by simp only [linPred, hc]) hR (white_predict A b Q X hc hw))
      refine ⟨rs, fun ω => ?_, h2, h3⟩
      unfold exec
      have := psd_step_later A b Q chi u y ω hR (hs ω) (by rw [hc]; exact hP) hq hlt
      rw [show (randApi (linFilter A b Q chi) ω).correct (x ω) y u = _ from this]
      exact h1 ω
    · rw [if_neg hlt] at hf hw
      obtain ⟨rs, h1, h2, h3⟩ := honest_events hQ es (fun ω => linPost y.C y.R (y.value ω) τ (x ω)) _ τ
        (kCov_psd hP y.C hR) (fun ω => by simp only [linPost, hc]) (fun ω => rfl) hf (white_correct X hP hc hR hw)
      refine ⟨rs, fun ω => ?_, h2, h3⟩
      unfold exec
      have := psd_step_here A b Q chi (some ⟨u.value, some u.stamp⟩) y ω hR (hs ω) (by rw [hc]; exact hP) ht hlt
      rw [show (randApi (linFilter A b Q chi) ω).correct (x ω) y u = _ from this]
      exact h1 ω

end run

theorem forwardR_corrects (u : StInp U) (es : List (Ev (StInp U) (RMeas Ω n))) :
    ∀ (ys : List (RMeas Ω n)) (τ : ℝ), (∀ y ∈ ys, τ ≤ y.stamp ∧ y.R.PosDef) →
      ys.Pairwise (fun a c => a.stamp ≤ c.stamp) →
      (∀ τ', (τ' = τ ∨ ∃ y ∈ ys, τ' = y.stamp) → ForwardR τ' es) →
      ForwardR τ (ys.map (fun y => Ev.correct y u) ++ es)
  | [], τ, _, _, h => h τ (.inl rfl)
  | y :: ys, τ, hy, hs, h => by
    obtain ⟨h1, h2⟩ := hy y (by simp)
    refine ⟨h1, h2, ?_⟩
    split
    · refine forwardR_corrects u es ys y.stamp (fun z hz => ⟨(List.pairwise_cons.mp hs).1 z hz, (hy z (by simp [hz])).2⟩)
        (List.pairwise_cons.mp hs).2 (fun τ' ht => h τ' ?_)
      rcases ht with rfl | ⟨z, hz, rfl⟩
      · exact .inr ⟨y, by simp, rfl⟩
      · exact .inr ⟨z, by simp [hz], rfl⟩
    · refine forwardR_corrects u es ys τ (fun z hz => hy z (by simp [hz])) (List.pairwise_cons.mp hs).2
        (fun τ' ht => h τ' ?_)
      rcases ht with rfl | ⟨z, hz, rfl⟩
      · exact .inl rfl
      · exact .inr ⟨z, by simp [hz], rfl⟩

theorem forwardR_schedule {meas : List (RMeas Ω n)} (hl : ∀ y ∈ meas, y.R.PosDef)
    (hm : meas.Pairwise (fun a c => a.stamp ≤ c.stamp)) :
    ∀ (us : List (StInp U)) (u : StInp U) (τ : ℝ) (first : Bool), τ ≤ u.stamp →
      (first = true → ∀ y ∈ meas, τ ≤ y.stamp) → (u :: us).Pairwise (fun a c => a.stamp ≤ c.stamp) →
      ForwardR τ (schedule StInp.stamp RMeas.stamp first (u :: us) meas)
  | [], u, τ, first, h1, h2, h3 => trivial
  | u' :: us, u, τ, first, h1, h2, h3 => by
    have huu : u.stamp ≤ u'.stamp := (List.pairwise_cons.mp h3).1 u' (by simp)
    unfold schedule
    rw [List.append_assoc]
    refine forwardR_corrects u _ _ τ (fun y hy => ?_) (hm.filter _) (fun τ' ht => ?_)
    · obtain ⟨hy1, hy2⟩ := List.mem_filter.mp hy
      simp only [decide_eq_true_eq] at hy2
      refine ⟨?_, hl y hy1⟩
      rcases hy2.1 with hf | hf
      · exact h2 hf y hy1
      · exact le_trans h1 hf
    · have hlt : τ' ≤ u'.stamp := by
        rcases ht with rfl | ⟨y, hy, rfl⟩
        · linarith
        · have := (List.mem_filter.mp hy).2
          simp only [decide_eq_true_eq] at this
          exact this.2.le
      exact ⟨hlt, forwardR_schedule hl hm us u' u'.stamp false (le_refl _) (fun h => (by cases h))
        (List.pairwise_cons.mp h3).2⟩

/-- The events of a run on a random log: which measurement is fused when does not depend on the outcome. -/
noncomputable def runEvents (t0 : ℝ) (ins : List (StInp U)) (meas : List (RMeas Ω n)) : List (Ev (StInp U) (RMeas Ω n)) :=
  schedule StInp.stamp RMeas.stamp true (retained StInp.stamp t0 ins) (retained RMeas.stamp t0 meas)

theorem runEvents_forward {t0 : ℝ} {ins : List (StInp U)} {meas : List (RMeas Ω n)} (hl : ∀ y ∈ meas, y.R.PosDef) :
    ForwardR t0 (runEvents t0 ins meas) := by
  have hr1 : ∀ u ∈ retained StInp.stamp t0 ins, t0 ≤ u.stamp := by
    intro u hu
    unfold retained at hu
    simpa using (List.mem_filter.mp hu).2
  have hr2 : ∀ y ∈ retained RMeas.stamp t0 meas, t0 ≤ y.stamp := by
    intro u hu
    unfold retained at hu
    simpa using (List.mem_filter.mp hu).2
  have hl2 : ∀ y ∈ retained RMeas.stamp t0 meas, y.R.PosDef := by
    intro y hy
    unfold retained at hy
    exact hl y ((sortByStamp_mem _).mp (List.mem_filter.mp hy).1)
  have hs1 : (retained StInp.stamp t0 ins).Pairwise (fun a c => a.stamp ≤ c.stamp) := (sortByStamp_sorted _ _).filter _ _
  have hs2 : (retained RMeas.stamp t0 meas).Pairwise (fun a c => a.stamp ≤ c.stamp) := (sortByStamp_sorted _ _).filter _ _
  unfold runEvents
  cases hc : retained StInp.stamp t0 ins with
  | nil => exact trivial
  | cons u us =>
    rw [hc] at hs1
    exact forwardR_schedule hl2 hs2 us u t0 true (hr1 u (by rw [hc]; simp)) (fun _ => hr2) hs1

section main
variable {μ : Measure Ω} [IsProbabilityMeasure μ]
variable (A : Inp U → ℝ → Mat n n) (b : Inp U → ℝ → Vec n) (Q : Inp U → ℝ → Mat n n) (chi : ℕ → ℝ) (X : ℝ → Ω → Vec n)

/-- C105, for any relation between the actual and the modelled covariances of the noise. The initial error, the process noises and
the measurement noises of the run being white, `run_filter` succeeds in every outcome with the same number of estimates, every
estimate is unbiased, and the covariance of its error is in that relation to the covariance it carries. -/
theorem C105_run_filter (rel : CovRel) (hQ : ∀ u dt, 0 ≤ dt → (Q u dt).PosSemidef) (x0 : Ω → Vec n) (t0 : ℝ) (P0 : Mat n n)
    (hP : P0.PosSemidef) (ins : List (StInp U)) (meas : List (RMeas Ω n))
    (hi : ins = [] ∨ ∃ u ∈ ins, t0 ≤ u.stamp) (hm : meas = [] ∨ ∃ y ∈ meas, t0 ≤ y.stamp) (hR : ∀ y ∈ meas, y.R.PosDef)
    (hw : White μ rel (⟨n, fun ω => X t0 ω - x0 ω, P0⟩ :: noises A b Q X t0 (runEvents t0 ins meas))) :
    ∃ rs : List (Ω → SWC (Vec n) n),
      (∀ ω, runFilter (ekfApi (linFilter A b Q chi)) ⟨⟨x0 ω, some t0⟩, P0⟩ ins (meas.map (·.at ω)) = .ok (rs.map (· ω))) ∧
      rs.length = recorded (runEvents t0 ins meas) ∧ ∀ r ∈ rs, ∃ t P, Honest μ rel X r t P := by
  obtain ⟨rs, h1, h2, h3⟩ := honest_events rel A b Q chi X hQ (runEvents t0 ins meas) (fun ω => ⟨⟨x0 ω, some t0⟩, P0⟩) P0 t0 hP
    (fun _ => rfl) (fun _ => rfl) (runEvents_forward hR) hw
  refine ⟨rs, fun ω => ?_, h2, h3⟩
  rw [run_rand, C21_run_filter_schedule (randApi (linFilter A b Q chi) ω) _ t0 rfl ins meas hi hm]
  exact h1 ω

/-- C105: with noise of the modelled covariances, the reported covariance is the covariance of the error. -/
theorem C105_exact (hQ : ∀ u dt, 0 ≤ dt → (Q u dt).PosSemidef) (x0 : Ω → Vec n) (t0 : ℝ) (P0 : Mat n n)
    (hP : P0.PosSemidef) (ins : List (StInp U)) (meas : List (RMeas Ω n))
    (hi : ins = [] ∨ ∃ u ∈ ins, t0 ≤ u.stamp) (hm : meas = [] ∨ ∃ y ∈ meas, t0 ≤ y.stamp) (hR : ∀ y ∈ meas, y.R.PosDef)
    (hw : White μ CovRel.exact (⟨n, fun ω => X t0 ω - x0 ω, P0⟩ :: noises A b Q X t0 (runEvents t0 ins meas))) :
    ∃ rs : List (Ω → SWC (Vec n) n),
      (∀ ω, runFilter (ekfApi (linFilter A b Q chi)) ⟨⟨x0 ω, some t0⟩, P0⟩ ins (meas.map (·.at ω)) = .ok (rs.map (· ω))) ∧
      ∀ r ∈ rs, ∃ t, (∀ ω, (r ω).state.stamp = some t) ∧ rvMean μ (fun ω => X t ω - (r ω).state.value) = 0 ∧
        ∀ ω, (r ω).cov = rvCross μ (fun ω => X t ω - (r ω).state.value) (fun ω => X t ω - (r ω).state.value) := by
  obtain ⟨rs, h1, -, h3⟩ := C105_run_filter A b Q chi X CovRel.exact hQ x0 t0 P0 hP ins meas hi hm hR hw
  refine ⟨rs, h1, fun r hr => ?_⟩
  obtain ⟨t, P, h⟩ := h3 r hr
  exact ⟨t, h.stamp, h.mean, fun ω => (h.cov ω).trans h.error.symm⟩

/-- C105: if the models overstate the noise, the filter is conservative: what it reports is an upper bound of the covariance of the
error. -/
theorem C105_conservative (hQ : ∀ u dt, 0 ≤ dt → (Q u dt).PosSemidef) (x0 : Ω → Vec n) (t0 : ℝ) (P0 : Mat n n)
    (hP : P0.PosSemidef) (ins : List (StInp U)) (meas : List (RMeas Ω n))
    (hi : ins = [] ∨ ∃ u ∈ ins, t0 ≤ u.stamp) (hm : meas = [] ∨ ∃ y ∈ meas, t0 ≤ y.stamp) (hR : ∀ y ∈ meas, y.R.PosDef)
    (hw : White μ CovRel.over (⟨n, fun ω => X t0 ω - x0 ω, P0⟩ :: noises A b Q X t0 (runEvents t0 ins meas))) :
    ∃ rs : List (Ω → SWC (Vec n) n),
      (∀ ω, runFilter (ekfApi (linFilter A b Q chi)) ⟨⟨x0 ω, some t0⟩, P0⟩ ins (meas.map (·.at ω)) = .ok (rs.map (· ω))) ∧
      ∀ r ∈ rs, ∃ t, (∀ ω, (r ω).state.stamp = some t) ∧ rvMean μ (fun ω => X t ω - (r ω).state.value) = 0 ∧
        ∀ ω, ((r ω).cov - rvCross μ (fun ω => X t ω - (r ω).state.value) (fun ω => X t ω - (r ω).state.value)).PosSemidef := by
  obtain ⟨rs, h1, -, h3⟩ := C105_run_filter A b Q chi X CovRel.over hQ x0 t0 P0 hP ins meas hi hm hR hw
  refine ⟨rs, h1, fun r hr => ?_⟩
  obtain ⟨t, P, h⟩ := h3 r hr
  exact ⟨t, h.stamp, h.mean, fun ω => by rw [h.cov ω]; exact h.error⟩

/-- C105: if the models understate the noise, what the filter reports is a lower bound of the covariance of the error. -/
theorem C105_optimistic (hQ : ∀ u dt, 0 ≤ dt → (Q u dt).PosSemidef) (x0 : Ω → Vec n) (t0 : ℝ) (P0 : Mat n n)
    (hP : P0.PosSemidef) (ins : List (StInp U)) (meas : List (RMeas Ω n))
    (hi : ins = [] ∨ ∃ u ∈ ins, t0 ≤ u.stamp) (hm : meas = [] ∨ ∃ y ∈ meas, t0 ≤ y.stamp) (hR : ∀ y ∈ meas, y.R.PosDef)
    (hw : White μ CovRel.under (⟨n, fun ω => X t0 ω - x0 ω, P0⟩ :: noises A b Q X t0 (runEvents t0 ins meas))) :
    ∃ rs : List (Ω → SWC (Vec n) n),
      (∀ ω, runFilter (ekfApi (linFilter A b Q chi)) ⟨⟨x0 ω, some t0⟩, P0⟩ ins (meas.map (·.at ω)) = .ok (rs.map (· ω))) ∧
      ∀ r ∈ rs, ∃ t, (∀ ω, (r ω).state.stamp = some t) ∧ rvMean μ (fun ω => X t ω - (r ω).state.value) = 0 ∧
        ∀ ω, (rvCross μ (fun ω => X t ω - (r ω).state.value) (fun ω => X t ω - (r ω).state.value) - (r ω).cov).PosSemidef := by
  obtain ⟨rs, h1, -, h3⟩ := C105_run_filter A b Q chi X CovRel.under hQ x0 t0 P0 hP ins meas hi hm hR hw
  refine ⟨rs, h1, fun r hr => ?_⟩
  obtain ⟨t, P, h⟩ := h3 r hr
  exact ⟨t, h.stamp, h.mean, fun ω => by rw [h.cov ω]; exact h.error⟩

end main

/-! ### The normalised error -/

/-- The mean of a quadratic form. -/
theorem quad_mean {m : ℕ} {μ : Measure Ω} {Z : Ω → Vec m} (h : SqInt μ Z) (M : Mat m m) :
    ∫ ω, Z ω ⬝ᵥ M *ᵥ Z ω ∂μ = (M * rvCross μ Z Z).trace := by
  have e : (fun ω => Z ω ⬝ᵥ M *ᵥ Z ω) = fun ω => ∑ i, Z ω i * (M *ᵥ Z ω) i := rfl
  rw [e, integral_finsetSum _ (fun i _ => SqInt.int_mul (h i) (h.mulVec M i)), ← rvCross_mulVec_left h h M]
  refine Finset.sum_congr rfl fun i _ => ?_
  show ∫ ω, Z ω i * (M *ᵥ Z ω) i ∂μ = ∫ ω, (M *ᵥ Z ω) i * Z ω i ∂μ
  congr 1; funext ω; ring

theorem trace_mul_psd {m : ℕ} {M D : Mat m m} (hM : M.PosDef) (hD : D.PosSemidef) : 0 ≤ (M * D).trace := by
  obtain ⟨L, -, rfl⟩ := chol_ok hM
  rw [Matrix.mul_assoc, Matrix.trace_mul_comm]
  have := psd_conj hD Lᵀ
  rw [transpose_transpose] at this
  exact this.trace_nonneg

theorem nees_value {μ : Measure Ω} {rel : CovRel} {X : ℝ → Ω → Vec n} {r : Ω → SWC (Vec n) n} {t : ℝ} {P : Mat n n}
    (h : Honest μ rel X r t P) (hP : P.PosDef) (hn : 0 < n) :
    ∃ g : Ω → GResult (Vec n) n,
      (∀ ω, gaussianResult (vecStateOps n) (r ω).state (r ω).cov (X t ω) = .ok (g ω)) ∧
      ∫ ω, (g ω).nees ∂μ
        = (P⁻¹ * rvCross μ (fun ω => X t ω - (r ω).state.value) (fun ω => X t ω - (r ω).state.value)).trace := by
  have hg : ∀ ω, ∃ g, gaussianResult (vecStateOps n) (r ω).state (r ω).cov (X t ω) = .ok g ∧
      g.nees = (X t ω - (r ω).state.value) ⬝ᵥ P⁻¹ *ᵥ (X t ω - (r ω).state.value) := by
    intro ω
    obtain ⟨g, h1, -, -, h4, -, h6, -⟩ := C54_result (vecStateOps n) (r ω).state P (X t ω) hP hn
    refine ⟨g, by rw [h.cov ω]; exact h1, ?_⟩
    rw [h6, h4]
    rfl
  choose g h1 h2 using hg
  refine ⟨g, h1, ?_⟩
  rw [← quad_mean h.sq]
  exact integral_congr_ae (Filter.Eventually.of_forall fun ω => h2 ω)

/-- C105: the NEES that `GaussianResult` computes for a reported estimate has mean `n`, the number of degrees of freedom, ... -/
theorem C105_nees {μ : Measure Ω} {X : ℝ → Ω → Vec n} {r : Ω → SWC (Vec n) n} {t : ℝ} {P : Mat n n}
    (h : Honest μ CovRel.exact X r t P) (hP : P.PosDef) (hn : 0 < n) :
    ∃ g : Ω → GResult (Vec n) n,
      (∀ ω, gaussianResult (vecStateOps n) (r ω).state (r ω).cov (X t ω) = .ok (g ω)) ∧ ∫ ω, (g ω).nees ∂μ = n := by
  obtain ⟨g, h1, h2⟩ := nees_value h hP hn
  refine ⟨g, h1, ?_⟩
  rw [h2, show rvCross μ (fun ω => X t ω - (r ω).state.value) (fun ω => X t ω - (r ω).state.value) = P from h.error,
    nonsing_inv_mul _ (unit_of_det (pd_det hP)), trace_one, Fintype.card_fin]

/-- ... at most `n` if the models overstate the noise, ... -/
theorem C105_nees_over {μ : Measure Ω} {X : ℝ → Ω → Vec n} {r : Ω → SWC (Vec n) n} {t : ℝ} {P : Mat n n}
    (h : Honest μ CovRel.over X r t P) (hP : P.PosDef) (hn : 0 < n) :
    ∃ g : Ω → GResult (Vec n) n,
      (∀ ω, gaussianResult (vecStateOps n) (r ω).state (r ω).cov (X t ω) = .ok (g ω)) ∧ ∫ ω, (g ω).nees ∂μ ≤ n := by
  obtain ⟨g, h1, h2⟩ := nees_value h hP hn
  refine ⟨g, h1, ?_⟩
  have h3 := trace_mul_psd hP.inv (h.error :
    (P - rvCross μ (fun ω => X t ω - (r ω).state.value) (fun ω => X t ω - (r ω).state.value)).PosSemidef)
  rw [Matrix.mul_sub, trace_sub, nonsing_inv_mul _ (unit_of_det (pd_det hP)), trace_one, Fintype.card_fin] at h3
  rw [h2]
  linarith

/-- ... and at least `n` if they understate it. -/
theorem C105_nees_under {μ : Measure Ω} {X : ℝ → Ω → Vec n} {r : Ω → SWC (Vec n) n} {t : ℝ} {P : Mat n n}
    (h : Honest μ CovRel.under X r t P) (hP : P.PosDef) (hn : 0 < n) :
    ∃ g : Ω → GResult (Vec n) n,
      (∀ ω, gaussianResult (vecStateOps n) (r ω).state (r ω).cov (X t ω) = .ok (g ω)) ∧ (n : ℝ) ≤ ∫ ω, (g ω).nees ∂μ := by
  obtain ⟨g, h1, h2⟩ := nees_value h hP hn
  refine ⟨g, h1, ?_⟩
  have h3 := trace_mul_psd hP.inv (h.error :
    (rvCross μ (fun ω => X t ω - (r ω).state.value) (fun ω => X t ω - (r ω).state.value) - P).PosSemidef)
  rw [Matrix.mul_sub, trace_sub, nonsing_inv_mul _ (unit_of_det (pd_det hP)), trace_one, Fintype.card_fin] at h3
  rw [h2]
  linarith

/-- C105: the innovation that `correct` returns in its details has mean zero and the covariance `S` returned with it, and `S` does
not depend on the outcome. -/
theorem C105_innovation {μ : Measure Ω} [IsProbabilityMeasure μ] (A : Inp U → ℝ → Mat n n) (b : Inp U → ℝ → Vec n)
    (Q : Inp U → ℝ → Mat n n) (chi : ℕ → ℝ) {X : ℝ → Ω → Vec n} {r : Ω → SWC (Vec n) n} {t : ℝ} {P : Mat n n}
    (h : Honest μ CovRel.exact X r t P) (y : RMeas Ω n) (hy : y.stamp = t) (hR : y.R.PosDef)
    (hw : White μ CovRel.exact [⟨n, fun ω => X t ω - (r ω).state.value, P⟩, measNoise X t y]) (u : Option (Inp U)) :
    ∃ (z : Ω → Vec y.m) (S : Mat y.m y.m) (x' : Ω → SWC (Vec n) n),
      (∀ ω, (linFilter A b Q chi).correctD (r ω) (y.at ω).meas u none none = .ok (x' ω, some ⟨y.m, z ω, S, false⟩)) ∧
      rvMean μ z = 0 ∧ rvCross μ z z = S := by
  have s1 : SqInt μ (fun ω => X t ω - (r ω).state.value) := h.sq
  have s2 : SqInt μ (fun ω => y.value ω - y.C *ᵥ X t ω) := hw.sq (measNoise X t y) (by simp)
  have m2 : rvMean μ (fun ω => y.value ω - y.C *ᵥ X t ω) = 0 := hw.mean (measNoise X t y) (by simp)
  have c2 : rvCross μ (fun ω => y.value ω - y.C *ᵥ X t ω) (fun ω => y.value ω - y.C *ᵥ X t ω) = y.R :=
    hw.cov (measNoise X t y) (by simp)
  have h0 : rvCross μ (fun ω => X t ω - (r ω).state.value) (fun ω => y.value ω - y.C *ᵥ X t ω) = 0 :=
    (List.pairwise_cons.mp hw.uncorr).1 (measNoise X t y) (by simp)
  have c1 : rvCross μ (fun ω => X t ω - (r ω).state.value) (fun ω => X t ω - (r ω).state.value) = P := h.error
  have ez : (fun ω => y.value ω - y.C *ᵥ (r ω).state.value)
      = fun ω => y.C *ᵥ (X t ω - (r ω).state.value) + (1 : Mat y.m y.m) *ᵥ (y.value ω - y.C *ᵥ X t ω) := by
    funext ω
    rw [one_mulVec, mulVec_sub]
    abel
  refine ⟨fun ω => y.value ω - y.C *ᵥ (r ω).state.value, y.C * P * y.Cᵀ + y.R, fun ω => linPost y.C y.R (y.value ω) t (r ω),
    fun ω => ?_, ?_, ?_⟩
  · have := psd_step_hereD A b Q chi u y.C (y.value ω) y.stamp hR (h.stamp ω) (by rw [h.cov]; exact h.psd) (by rw [hy])
      (by rw [hy, sub_self]; exact not_lt.mpr (by positivity))
    rw [h.cov] at this
    exact this
  · rw [ez, rvMean_add (s1.mulVec y.C) (s2.mulVec 1), rvMean_mulVec s1, rvMean_mulVec s2, h.mean, m2]
    simp
  · rw [ez, rvCross_comb s1 s2 h0, c1, c2]
    simp

/-! ### A random log -/

/-- A fair coin as a noise. -/
def sgn (c : Bool) : ℝ := if c then 1 else -1

/-- Four fair coins. -/
noncomputable def coins : Measure (Bool × Bool × Bool × Bool) := (1 / 16 : ENNReal) • Measure.count

instance : IsProbabilityMeasure coins := by
  refine ⟨?_⟩
  unfold coins
  rw [Measure.smul_apply, Measure.count_apply_finite _ Set.finite_univ]
  simp
  norm_num
  exact ENNReal.inv_mul_cancel (by norm_num) (by norm_num)

theorem coins_integral (f : Bool × Bool × Bool × Bool → ℝ) : ∫ ω, f ω ∂coins = (1 / 16) * ∑ ω, f ω := by
  unfold coins
  rw [integral_smul_measure, integral_fintype .of_finite]
  simp [Measure.real]

/-- The truth: a random walk on the line that moves at the times `1/2` and `1`. -/
noncomputable def coinTruth (t : ℝ) (ω : Bool × Bool × Bool × Bool) : Vec 1 := fun _ =>
  sgn ω.1 + (if 1 / 2 ≤ t then sgn ω.2.1 else 0) + (if 1 ≤ t then sgn ω.2.2.1 else 0)

/-- A measurement of it at time `1/2`. -/
noncomputable def coinMeas : RMeas (Bool × Bool × Bool × Bool) 1 :=
  ⟨1, 1, 1, 1 / 2, fun ω _ => sgn ω.1 + sgn ω.2.1 + sgn ω.2.2.2⟩

theorem coin_events : runEvents (U := Unit) 0 [⟨(), 0⟩, ⟨(), 1⟩] [coinMeas]
    = [Ev.correct coinMeas ⟨(), 0⟩, Ev.record, Ev.predict ⟨(), 0⟩ 1] := by
  classical
  have e1 : retained (StInp.stamp (U := Unit)) 0 [⟨(), 0⟩, ⟨(), 1⟩] = [⟨(), 0⟩, ⟨(), 1⟩] := by
    unfold retained
    rw [sortByStamp_of_sorted _ _ (by simp [TimeSorted]), List.filter_eq_self]
    intro x hx
    simp at hx
    rcases hx with rfl | rfl <;> simp
  have e2 : retained (RMeas.stamp (Ω := Bool × Bool × Bool × Bool) (n := 1)) 0 [coinMeas] = [coinMeas] := by
    unfold retained
    rw [sortByStamp_of_sorted _ _ (by simp [TimeSorted]), List.filter_eq_self]
    intro x hx
    rw [List.mem_singleton.mp hx]
    simp [coinMeas]
  unfold runEvents
  rw [e1, e2]
  have h1 : coinMeas.stamp < 1 := by norm_num [coinMeas]
  simp [schedule, h1]

theorem coin_white : White coins CovRel.exact (⟨1, fun ω => coinTruth 0 ω - 0, 1⟩ ::
    noises (U := Unit) (fun _ _ => 1) (fun _ _ => 0) (fun _ _ => 1) coinTruth 0 (runEvents 0 [⟨(), 0⟩, ⟨(), 1⟩] [coinMeas])) := by
  have e0 : (fun ω => coinTruth 0 ω - 0) = fun ω (_ : Fin 1) => sgn ω.1 := by
    funext ω i
    have h1 : ¬ (1 / 2 : ℝ) ≤ 0 := by norm_num
    have h2 : ¬ (1 : ℝ) ≤ 0 := by norm_num
    simp only [coinTruth, if_neg h1, if_neg h2, sub_zero, add_zero]
  have e1 : procNoise (fun _ _ => 1) (fun _ _ => 0) (fun _ _ => 1) coinTruth (⟨(), 0⟩ : StInp Unit) 0 (1 / 2)
      = ⟨1, fun ω _ => sgn ω.2.1, 1⟩ := by
    unfold procNoise
    congr 1
    funext ω i
    have h1 : ¬ (1 / 2 : ℝ) ≤ 0 := by norm_num
    have h2 : ¬ (1 : ℝ) ≤ 0 := by norm_num
    have h3 : ¬ (1 : ℝ) ≤ 1 / 2 := by norm_num
    show (sgn ω.1 + (if (1 / 2 : ℝ) ≤ 1 / 2 then sgn ω.2.1 else 0) + (if (1 : ℝ) ≤ 1 / 2 then sgn ω.2.2.1 else 0))
      - (((1 : Mat 1 1) *ᵥ coinTruth 0 ω) i + 0) = _
    rw [one_mulVec]
    simp only [coinTruth, if_neg h1, if_neg h2, if_neg h3, if_pos (le_refl _)]
    ring
  have e2 : procNoise (fun _ _ => 1) (fun _ _ => 0) (fun _ _ => 1) coinTruth (⟨(), 0⟩ : StInp Unit) (1 / 2) 1
      = ⟨1, fun ω _ => sgn ω.2.2.1, 1⟩ := by
    unfold procNoise
    congr 1
    funext ω i
    have h1 : (1 / 2 : ℝ) ≤ 1 := by norm_num
    have h3 : ¬ (1 : ℝ) ≤ 1 / 2 := by norm_num
    show (sgn ω.1 + (if (1 / 2 : ℝ) ≤ 1 then sgn ω.2.1 else 0) + (if (1 : ℝ) ≤ 1 then sgn ω.2.2.1 else 0))
      - (((1 : Mat 1 1) *ᵥ coinTruth (1 / 2) ω) i + 0) = _
    rw [one_mulVec]
    simp only [coinTruth, if_pos h1, if_neg h3, if_pos (le_refl _)]
    ring
  have e3 : measNoise coinTruth (1 / 2) coinMeas = ⟨1, fun ω _ => sgn ω.2.2.2, 1⟩ := by
    unfold measNoise
    show (⟨1, fun ω => ((fun _ => sgn ω.1 + sgn ω.2.1 + sgn ω.2.2.2) : Vec 1) - (1 : Mat 1 1) *ᵥ coinTruth (1 / 2) ω, 1⟩ : Noise _) = _
    congr 1
    funext ω i
    have h3 : ¬ (1 : ℝ) ≤ 1 / 2 := by norm_num
    show (sgn ω.1 + sgn ω.2.1 + sgn ω.2.2.2) - ((1 : Mat 1 1) *ᵥ coinTruth (1 / 2) ω) i = _
    rw [one_mulVec]
    simp only [coinTruth, if_neg h3, if_pos (le_refl _)]
    ring
  rw [coin_events]
  have hlt : coinMeas.stamp - 0 > 1 / 10 ^ 11 := by norm_num [coinMeas]
  have e4 : noises (U := Unit) (fun _ _ => 1) (fun _ _ => 0) (fun _ _ => 1) coinTruth 0
      [Ev.correct coinMeas ⟨(), 0⟩, Ev.record, Ev.predict ⟨(), 0⟩ 1]
      = [⟨1, fun ω _ => sgn ω.2.1, 1⟩, ⟨1, fun ω _ => sgn ω.2.2.2, 1⟩, ⟨1, fun ω _ => sgn ω.2.2.1, 1⟩] := by
    simp only [noises]
    rw [if_pos hlt]
    show [procNoise _ _ _ _ _ 0 (1 / 2), measNoise coinTruth (1 / 2) coinMeas, procNoise _ _ _ _ _ (1 / 2) 1] = _
    rw [e1, e2, e3]
  rw [e4, e0]
  refine ⟨?_, ?_, ?_, ?_⟩
  · intro η _ i
    exact MemLp.of_discrete
  · intro η hη
    simp only [List.mem_cons, List.not_mem_nil, or_false] at hη
    rcases hη with rfl | rfl | rfl | rfl <;> funext i <;> show ∫ ω, _ ∂coins = 0 <;> rw [coins_integral] <;>
      simp [Fintype.sum_prod_type, sgn] <;> norm_num
  · intro η hη
    simp only [List.mem_cons, List.not_mem_nil, or_false] at hη
    rcases hη with rfl | rfl | rfl | rfl <;> show rvCross coins _ _ = (1 : Mat 1 1) <;> ext i j <;>
      rw [Subsingleton.elim j i, one_apply_eq] <;> show ∫ ω, _ ∂coins = 1 <;> rw [coins_integral] <;>
      simp [Fintype.sum_prod_type, sgn] <;> norm_num
  · simp only [List.pairwise_cons, List.mem_cons, List.not_mem_nil, or_false, forall_eq_or_imp, forall_eq, List.Pairwise.nil,
      and_true, IsEmpty.forall_iff, implies_true]
    refine ⟨⟨?_, ?_, ?_⟩, ⟨?_, ?_⟩, ?_⟩ <;> ext i j <;> show ∫ ω, _ ∂coins = 0 <;> rw [coins_integral] <;>
      simp [Fintype.sum_prod_type, sgn] <;> norm_num

/-- The hypotheses of C105 hold for it: the filter reports the covariance of its error. -/
example : ∃ rs : List (Bool × Bool × Bool × Bool → SWC (Vec 1) 1),
    (∀ ω, runFilter (ekfApi (linFilter (U := Unit) (fun _ _ => 1) (fun _ _ => 0) (fun _ _ => 1) (fun _ => 0))) ⟨⟨0, some 0⟩, 1⟩
      [⟨(), 0⟩, ⟨(), 1⟩] ([coinMeas].map (·.at ω)) = .ok (rs.map (· ω))) ∧ rs.length = 1 ∧
    ∀ r ∈ rs, ∃ t P, Honest coins CovRel.exact coinTruth r t P := by
  obtain ⟨rs, h1, h2, h3⟩ := C105_run_filter (U := Unit) (μ := coins) (fun _ _ => 1) (fun _ _ => 0) (fun _ _ => 1) (fun _ => 0)
    coinTruth CovRel.exact (fun _ _ _ => PosSemidef.one) (fun _ => 0) 0 1 PosSemidef.one [⟨(), 0⟩, ⟨(), 1⟩] [coinMeas]
    (.inr ⟨⟨(), 0⟩, by simp, le_refl _⟩) (.inr ⟨coinMeas, by simp, by norm_num [coinMeas]⟩)
    (fun y hy => by rw [List.mem_singleton.mp hy]; exact PosDef.one) coin_white
  refine ⟨rs, h1, ?_, h3⟩
  rw [h2, coin_events]
  rfl

end Verif
