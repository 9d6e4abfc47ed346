import Verif.Model.RunFilters
import Verif.Props.FilterBatch
import Verif.Props.Sigma
import Verif.Props.Iekf

/-!
C93: on linear systems every Kalman filter of the package gives the same run.
-/

set_option linter.unusedSectionVars false
set_option linter.unusedVariables false

namespace Verif

open Matrix

variable {n k : ℕ} {U : Type}

/-- Two stamps are equal or far enough apart for the EKF to tell them apart (`filters.py:209`, `dt > 1e-11`). -/
def Distinguishable (s t : ℝ) : Prop := s = t ∨ 1 / 10 ^ 11 < |s - t|

/-- The events go forward in time with distinguishable stamps, the inputs satisfy `okI` and the measurements are linear. -/
def Steps {I : Type} (okI : I → Prop) : ℝ → List (Ev I (StMeas (Vec n) n)) → Prop
  | _, [] => True
  | τ, .record :: es => Steps okI τ es
  | τ, .predict u t :: es => τ ≤ t ∧ okI u ∧ Steps okI t es
  | τ, .correct y u :: es => (y.stamp = τ ∨ y.stamp - τ > 1 / 10 ^ 11) ∧ okI u ∧ LinearMeas y ∧ Steps okI y.stamp es

/-- Two filters that stay related step by step give related runs. -/
theorem exec_agree {X X' I : Type} {f : FilterApi X I (StMeas (Vec n) n)} {g : FilterApi X' I (StMeas (Vec n) n)} {okI : I → Prop}
    (R : ℝ → X → X' → Prop)
    (hp : ∀ τ t u x x', R τ x x' → τ ≤ t → okI u →
      ∃ z z', predictTo f x u t = .ok z ∧ predictTo g x' u t = .ok z' ∧ R t z z')
    (hc : ∀ (τ : ℝ) (u : I) (y : StMeas (Vec n) n) (x : X) (x' : X'), R τ x x' → (y.stamp = τ ∨ y.stamp - τ > 1 / 10 ^ 11) →
      okI u → LinearMeas y → ∃ z z', f.correct x y u = .ok z ∧ g.correct x' y u = .ok z' ∧ R y.stamp z z') :
    ∀ (es : List (Ev I (StMeas (Vec n) n))) (τ : ℝ) (x : X) (x' : X'), R τ x x' → Steps okI τ es →
      ∃ rs rs', exec f es x = .ok rs ∧ exec g es x' = .ok rs' ∧ List.Forall₂ (fun r r' => ∃ t, R t r r') rs rs'
  | [], τ, x, x', h, _ => ⟨[], [], rfl, rfl, .nil⟩
  | .record :: es, τ, x, x', h, hs => by
    obtain ⟨rs, rs', h1, h2, h3⟩ := exec_agree R hp hc es τ x x' h hs
    refine ⟨x :: rs, x' :: rs', ?_, ?_, .cons ⟨τ, h⟩ h3⟩
    · unfold exec; rw [h1]; rfl
    · unfold exec; rw [h2]; rfl
  | .predict u t :: es, τ, x, x', h, hs => by
    obtain ⟨z, z', p1, p2, p3⟩ := hp τ t u x x' h hs.1 hs.2.1
    obtain ⟨rs, rs', h1, h2, h3⟩ := exec_agree R hp hc es t z z' p3 hs.2.2
    refine ⟨rs, rs', ?_, ?_, h3⟩
    · unfold exec; rw [p1]; exact h1
    · unfold exec; rw [p2]; exact h2
  | .correct y u :: es, τ, x, x', h, hs => by
    obtain ⟨z, z', p1, p2, p3⟩ := hc τ u y x x' h hs.1 hs.2.1 hs.2.2.1
    obtain ⟨rs, rs', h1, h2, h3⟩ := exec_agree R hp hc es y.stamp z z' p3 hs.2.2.2
    refine ⟨rs, rs', ?_, ?_, h3⟩
    · unfold exec; rw [p1]; exact h1
    · unfold exec; rw [p2]; exact h2

/-! ### The schedule of `run_filter` is such a list of events -/

theorem far {s t : ℝ} (h : Distinguishable s t) (hle : t ≤ s) : s = t ∨ s - t > 1 / 10 ^ 11 := by
  rcases h with h | h
  · exact .inl h
  · rw [abs_of_nonneg (by linarith)] at h
    exact .inr h

theorem steps_corrects {okI : StInp U → Prop} (u : StInp U) (hu : okI u) (es : List (Ev (StInp U) (StMeas (Vec n) n))) :
    ∀ (ys : List (StMeas (Vec n) n)) (τ : ℝ), (∀ y ∈ ys, τ ≤ y.stamp ∧ LinearMeas y ∧ Distinguishable y.stamp τ) →
      ys.Pairwise (fun a c => a.stamp ≤ c.stamp) → (∀ y ∈ ys, ∀ z ∈ ys, Distinguishable y.stamp z.stamp) →
      (∀ τ', (τ' = τ ∨ ∃ y ∈ ys, τ' = y.stamp) → Steps okI τ' es) →
      Steps okI τ (ys.map (fun y => Ev.correct y u) ++ es)
  | [], τ, _, _, _, h => h τ (.inl rfl)
  | y :: ys, τ, hy, hs, hd, h => by
    obtain ⟨h1, h2, h3⟩ := hy y (by simp)
    refine ⟨far h3 h1, hu, h2, ?_⟩
    refine steps_corrects u hu es ys y.stamp (fun z hz => ⟨(List.pairwise_cons.mp hs).1 z hz, (hy z (by simp [hz])).2.1,
        hd z (by simp [hz]) y (by simp)⟩)
      (List.pairwise_cons.mp hs).2 (fun a ha c hc => hd a (by simp [ha]) c (by simp [hc])) (fun τ' ht => h τ' ?_)
    rcases ht with rfl | ⟨z, hz, rfl⟩
    · exact .inr ⟨y, by simp, rfl⟩
    · exact .inr ⟨z, by simp [hz], rfl⟩

theorem steps_schedule {okI : StInp U → Prop} {meas : List (StMeas (Vec n) n)} (hl : ∀ y ∈ meas, LinearMeas y)
    (hm : meas.Pairwise (fun a c => a.stamp ≤ c.stamp)) (hd : ∀ y ∈ meas, ∀ z ∈ meas, Distinguishable y.stamp z.stamp) :
    ∀ (us : List (StInp U)) (u : StInp U) (τ : ℝ) (first : Bool), τ ≤ u.stamp → (∀ y ∈ meas, Distinguishable y.stamp τ) →
      (first = true → ∀ y ∈ meas, τ ≤ y.stamp) → (u :: us).Pairwise (fun a c => a.stamp ≤ c.stamp) →
      (∀ v ∈ u :: us, okI v ∧ ∀ y ∈ meas, Distinguishable y.stamp v.stamp) →
      Steps okI τ (schedule StInp.stamp StMeas.stamp first (u :: us) meas)
  | [], u, τ, first, h1, h0, h2, h3, h4 => trivial
  | u' :: us, u, τ, first, h1, h0, h2, h3, h4 => by
    have huu : u.stamp ≤ u'.stamp := (List.pairwise_cons.mp h3).1 u' (by simp)
    unfold schedule
    rw [List.append_assoc]
    refine steps_corrects u (h4 u (by simp)).1 _ _ τ (fun y hy => ?_) (hm.filter _)
      (fun y hy z hz => hd y (List.mem_filter.mp hy).1 z (List.mem_filter.mp hz).1) (fun τ' ht => ?_)
    · obtain ⟨hy1, hy2⟩ := List.mem_filter.mp hy
      simp only [decide_eq_true_eq] at hy2
      refine ⟨?_, hl y hy1, h0 y hy1⟩
      rcases hy2.1 with hf | hf
      · exact h2 hf y hy1
      · exact le_trans h1 hf
    · have hlt : τ' ≤ u'.stamp := by
        rcases ht with rfl | ⟨y, hy, rfl⟩
        · linarith
        · have := (List.mem_filter.mp hy).2
          simp only [decide_eq_true_eq] at this
          exact this.2.le
      exact ⟨hlt, (h4 u (by simp)).1, steps_schedule hl hm hd us u' u'.stamp false (le_refl _) (h4 u' (by simp)).2
        (fun h => (by cases h)) (List.pairwise_cons.mp h3).2 (fun v hv => h4 v (by simp at hv; simp [hv]))⟩

/-- The data of a run: at least one entry of each non-empty log not older than the initial estimate, linear measurements with
positive definite noise, inputs satisfying `okI`, and stamps that are equal or distinguishable. -/
structure LinearLog (okI : StInp U → Prop) (t0 : ℝ) (ins : List (StInp U)) (meas : List (StMeas (Vec n) n)) : Prop where
  ins_fresh : ins = [] ∨ ∃ u ∈ ins, t0 ≤ u.stamp
  meas_fresh : meas = [] ∨ ∃ y ∈ meas, t0 ≤ y.stamp
  ins_ok : ∀ u ∈ ins, okI u
  linear : ∀ y ∈ meas, LinearMeas y
  apart : ∀ y ∈ meas, ∀ s ∈ t0 :: (ins.map StInp.stamp ++ meas.map StMeas.stamp), Distinguishable y.stamp s

theorem LinearLog.steps {okI : StInp U → Prop} {t0 : ℝ} {ins : List (StInp U)} {meas : List (StMeas (Vec n) n)}
    (h : LinearLog okI t0 ins meas) :
    Steps okI t0 (schedule StInp.stamp StMeas.stamp true (retained StInp.stamp t0 ins) (retained StMeas.stamp t0 meas)) := by
  have hr1 : ∀ u ∈ retained StInp.stamp t0 ins, t0 ≤ u.stamp ∧ u ∈ ins := by
    intro u hu
    unfold retained at hu
    obtain ⟨h1, h2⟩ := List.mem_filter.mp hu
    exact ⟨by simpa using h2, (sortByStamp_mem _).mp h1⟩
  have hr2 : ∀ y ∈ retained StMeas.stamp t0 meas, t0 ≤ y.stamp ∧ y ∈ meas := by
    intro u hu
    unfold retained at hu
    obtain ⟨h1, h2⟩ := List.mem_filter.mp hu
    exact ⟨by simpa using h2, (sortByStamp_mem _).mp h1⟩
  have hs1 : (retained StInp.stamp t0 ins).Pairwise (fun a c => a.stamp ≤ c.stamp) := (sortByStamp_sorted _ _).filter _ _
  have hs2 : (retained StMeas.stamp t0 meas).Pairwise (fun a c => a.stamp ≤ c.stamp) := (sortByStamp_sorted _ _).filter _ _
  cases hc : retained StInp.stamp t0 ins with
  | nil => exact trivial
  | cons u us =>
    rw [hc] at hs1 hr1
    refine steps_schedule (fun y hy => h.linear y (hr2 y hy).2) hs2 (fun y hy z hz => h.apart y (hr2 y hy).2 _ ?_) us u t0 true
      (hr1 u (by simp)).1 (fun y hy => h.apart y (hr2 y hy).2 _ (by simp)) (fun _ y hy => (hr2 y hy).1) hs1
      (fun v hv => ⟨h.ins_ok v (hr1 v hv).2, fun y hy => h.apart y (hr2 y hy).2 _ ?_⟩)
    · have := (hr2 z hz).2
      simp only [List.mem_cons, List.mem_append, List.mem_map]
      exact .inr (.inr ⟨z, this, rfl⟩)
    · have := (hr1 v hv).2
      simp only [List.mem_cons, List.mem_append, List.mem_map]
      exact .inr (.inl ⟨v, this, rfl⟩)

theorem run_agree {X X' : Type} {f : FilterApi X (StInp U) (StMeas (Vec n) n)} {g : FilterApi X' (StInp U) (StMeas (Vec n) n)}
    {okI : StInp U → Prop} (R : ℝ → X → X' → Prop)
    (hfi : f.istamp = StInp.stamp) (hfy : f.ystamp = StMeas.stamp) (hgi : g.istamp = StInp.stamp) (hgy : g.ystamp = StMeas.stamp)
    (hp : ∀ τ t u x x', R τ x x' → τ ≤ t → okI u →
      ∃ z z', predictTo f x u t = .ok z ∧ predictTo g x' u t = .ok z' ∧ R t z z')
    (hc : ∀ (τ : ℝ) (u : StInp U) (y : StMeas (Vec n) n) (x : X) (x' : X'), R τ x x' → (y.stamp = τ ∨ y.stamp - τ > 1 / 10 ^ 11) →
      okI u → LinearMeas y → ∃ z z', f.correct x y u = .ok z ∧ g.correct x' y u = .ok z' ∧ R y.stamp z z')
    {t0 : ℝ} {x0 : X} {x0' : X'} (h0 : R t0 x0 x0') (hx : f.xstamp x0 = some t0) (hx' : g.xstamp x0' = some t0)
    {ins : List (StInp U)} {meas : List (StMeas (Vec n) n)} (hlog : LinearLog okI t0 ins meas) :
    ∃ rs rs', runFilter f x0 ins meas = .ok rs ∧ runFilter g x0' ins meas = .ok rs' ∧
      List.Forall₂ (fun r r' => ∃ t, R t r r') rs rs' := by
  rw [C21_run_filter_schedule f x0 t0 hx ins meas (by rw [hfi]; exact hlog.ins_fresh) (by rw [hfy]; exact hlog.meas_fresh),
    C21_run_filter_schedule g x0' t0 hx' ins meas (by rw [hgi]; exact hlog.ins_fresh) (by rw [hgy]; exact hlog.meas_fresh),
    hfi, hfy, hgi, hgy]
  exact exec_agree R hp hc _ t0 x0 x0' h0 hlog.steps

/-! ### Single steps -/

/-- The Kalman prediction from `τ` to `t`. -/
noncomputable def linPred (A : Inp U → ℝ → Mat n n) (b : Inp U → ℝ → Vec n) (Q : Inp U → ℝ → Mat n n) (u : Inp U) (τ t : ℝ)
    (x : SWC (Vec n) n) : SWC (Vec n) n :=
  ⟨⟨A u (t - τ) *ᵥ x.state.value + b u (t - τ), some t⟩, A u (t - τ) * x.cov * (A u (t - τ))ᵀ + Q u (t - τ)⟩

/-- The Kalman correction at `t`. -/
noncomputable def linPost {m : ℕ} (C : Mat m n) (R : Mat m m) (y : Vec m) (t : ℝ) (x : SWC (Vec n) n) : SWC (Vec n) n :=
  ⟨⟨x.state.value + kGain x.cov C R *ᵥ (y - C *ᵥ x.state.value), some t⟩, kCov x.cov C R⟩

theorem linPost_pd {m : ℕ} {C : Mat m n} {R : Mat m m} (hR : R.PosDef) {y : Vec m} {t : ℝ} {x : SWC (Vec n) n} (hP : x.cov.PosDef) :
    (linPost C R y t x).cov.PosDef := by
  show (kCov x.cov C R).PosDef
  rw [kCov_info hP C hR]
  exact (info_pd hP C hR).inv

section ekf
variable (A : Inp U → ℝ → Mat n n) (b : Inp U → ℝ → Vec n) (Q : Inp U → ℝ → Mat n n) (chi : ℕ → ℝ)

theorem linPred_pd {x : SWC (Vec n) n} {τ t : ℝ} {u : Inp U} (hP : x.cov.PosDef) (hA : IsUnit (A u (t - τ)).det)
    (hQ : (Q u (t - τ)).PosSemidef) : (linPred A b Q u τ t x).cov.PosDef := by
  refine PosDef.add_posSemidef ?_ hQ
  have := hP.mul_mul_conjTranspose_same (B := A u (t - τ)) (by
    rw [Matrix.vecMul_injective_iff_isUnit]
    exact (Matrix.isUnit_iff_isUnit_det _).mpr hA)
  exact this

theorem ekf_step_predict {x : SWC (Vec n) n} {τ t : ℝ} (u : Inp U) (hx : x.state.stamp = some τ) (ht : τ ≤ t)
    (hP : x.cov.PosDef) (hA : IsUnit (A u (t - τ)).det) (hQ : (Q u (t - τ)).PosSemidef) :
    (linFilter A b Q chi).predict x (some u) (some (t - τ)) none = .ok (linPred A b Q u τ t x) := by
  have hd : 0 ≤ t - τ := by linarith
  have hs := symmetrize_eq (psd_symm (linPred_pd A b Q hP hA hQ).posSemidef)
  rw [predict_some_some _ x _ τ (t - τ) none hx hd]
  congr 1
  show (⟨⟨A u (t - τ) *ᵥ x.state.value + b u (t - τ), some (τ + (t - τ))⟩,
    symmetrize (A u (t - τ) * x.cov * (A u (t - τ))ᵀ + Q u (t - τ))⟩ : SWC (Vec n) n) = _
  rw [show τ + (t - τ) = t by ring]
  exact congrArg (SWC.mk _) hs

theorem ekf_step_here {x : SWC (Vec n) n} (u : Option (Inp U)) (y : StMeas (Vec n) n) {C : Mat y.meas.m n}
    {R : Mat y.meas.m y.meas.m} (hR : R.PosDef) (hy : y.meas.model = linMeasModel C R)
    (hx : x.state.stamp = some y.stamp) (hP : x.cov.PosDef) :
    (linFilter A b Q chi).correct x y.meas u none none = .ok (linPost C R y.meas.value y.stamp x) := by
  obtain ⟨x', h1, h2, -, h4, h5⟩ := lin_correct A b Q chi u y hR hy hx hP (le_refl _)
    (by rw [sub_self]; exact not_lt.mpr (by positivity))
  rw [h1]
  congr 1
  obtain ⟨⟨v, s⟩, P⟩ := x'
  simp only at h2 h4 h5
  subst h2 h4 h5
  rfl

theorem ekf_step_later {x : SWC (Vec n) n} {τ : ℝ} (u : Inp U) (y : StMeas (Vec n) n) {C : Mat y.meas.m n}
    {R : Mat y.meas.m y.meas.m} (hR : R.PosDef) (hy : y.meas.model = linMeasModel C R)
    (hx : x.state.stamp = some τ) (hP : x.cov.PosDef) (hA : IsUnit (A u (y.stamp - τ)).det)
    (hQ : (Q u (y.stamp - τ)).PosSemidef) (hlt : y.stamp - τ > 1 / 10 ^ 11) :
    (linFilter A b Q chi).correct x y.meas (some u) none none
      = .ok (linPost C R y.meas.value y.stamp (linPred A b Q u τ y.stamp x)) := by
  have h0 : (0 : ℝ) < 1 / 10 ^ 11 := by positivity
  rw [C02_correct_eq_predict_then_correct (linFilter A b Q chi) x y.meas u none none τ y.stamp hx y.hstamp hlt,
    ekf_step_predict A b Q chi u hx (by linarith) hP hA hQ]
  exact ekf_step_here A b Q chi none y hR hy rfl (linPred_pd A b Q hP hA hQ)

/-- The iterated filter where it stands: the covariance of the EKF; its mean too, unless the step is below the tolerance. -/
theorem iekf_step_here (tol : ℝ) (iters : ℕ) (ls : Bool) (lsFuel : ℕ) (hit : iters ≠ 0) (h01 : ls = true → 0 < tol ∧ tol < 1)
    {x : SWC (Vec n) n} (u : Option (Inp U)) (y : StMeas (Vec n) n) {C : Mat y.meas.m n}
    {R : Mat y.meas.m y.meas.m} (hR : R.PosDef) (hy : y.meas.model = linMeasModel C R)
    (hx : x.state.stamp = some y.stamp) (hP : x.cov.PosDef) :
    ∃ x', (vecIekf (linProcModel A b Q) false chi tol iters ls).correctI (lsFuel + 1) x y.meas u none none = .ok x' ∧
      x'.cov = (linPost C R y.meas.value y.stamp x).cov ∧ x'.state.stamp = some y.stamp ∧
      (tol ≤ 0 → x' = linPost C R y.meas.value y.stamp x) := by
  have hadv : ∀ v : Option (Inp U), (vecIekf (linProcModel A b Q) false chi tol iters ls).advanceI x y.meas v = .ok x := by
    intro v
    unfold IekfEnv.advanceI
    simp only [hx, y.hstamp, sub_self, lt_irrefl, if_false]
    cases v <;> rfl
  have e1 : (vecIekf (linProcModel A b Q) false chi tol iters ls).correctI (lsFuel + 1) x y.meas u none none
      = (vecIekf (linProcModel A b Q) false chi tol iters ls).correctI (lsFuel + 1) x y.meas none none (some false) := by
    unfold IekfEnv.correctI IekfEnv.correctT
    rw [hadv, hadv]
    rfl
  rw [e1]
  obtain ⟨⟨m, value, stamp, model⟩, ys, hst⟩ := y
  simp only at hy C R hst hx
  subst hy hst
  obtain ⟨xe, xi, h1, h2, h3, h4, h5, h6⟩ := C11_iekf_linear_eq_ekf (linProcModel A b Q) false chi tol iters ls C R hR value ys x hP
    lsFuel hx hit h01
  rw [correct_linear (linProcModel A b Q) false chi C R hR value ys x hP.posSemidef hx] at h1
  cases h1
  refine ⟨xi, h2, h3, h4, fun ht => ?_⟩
  have hnn : ∀ v : Vec n, ¬ npNorm v < tol := fun v => not_lt.mpr (le_trans ht (Real.sqrt_nonneg _))
  obtain ⟨⟨v, s⟩, P⟩ := xi
  have h7 := h5 (hnn _)
  simp only at h3 h4 h7
  subst h3 h4 h7
  rfl

theorem iekf_step_later (tol : ℝ) (iters : ℕ) (ls : Bool) (lsFuel : ℕ) (hit : iters ≠ 0) (h01 : ls = true → 0 < tol ∧ tol < 1)
    {x : SWC (Vec n) n} {τ : ℝ} (u : Inp U) (y : StMeas (Vec n) n) {C : Mat y.meas.m n}
    {R : Mat y.meas.m y.meas.m} (hR : R.PosDef) (hy : y.meas.model = linMeasModel C R)
    (hx : x.state.stamp = some τ) (hP : x.cov.PosDef) (hA : IsUnit (A u (y.stamp - τ)).det)
    (hQ : (Q u (y.stamp - τ)).PosSemidef) (hlt : 0 < y.stamp - τ) :
    ∃ x', (vecIekf (linProcModel A b Q) false chi tol iters ls).correctI (lsFuel + 1) x y.meas (some u) none none = .ok x' ∧
      x'.cov = (linPost C R y.meas.value y.stamp (linPred A b Q u τ y.stamp x)).cov ∧ x'.state.stamp = some y.stamp ∧
      (tol ≤ 0 → x' = linPost C R y.meas.value y.stamp (linPred A b Q u τ y.stamp x)) := by
  have hadv : (vecIekf (linProcModel A b Q) false chi tol iters ls).advanceI x y.meas (some u) = .ok (linPred A b Q u τ y.stamp x) := by
    have := ekf_step_predict A b Q chi u hx (show τ ≤ y.stamp by linarith) hP hA hQ
    unfold IekfEnv.advanceI
    simp only [hx, y.hstamp]
    rw [if_neg (by linarith), if_pos hlt]
    exact this
  have hadv2 : (vecIekf (linProcModel A b Q) false chi tol iters ls).advanceI (linPred A b Q u τ y.stamp x) y.meas none
      = .ok (linPred A b Q u τ y.stamp x) := by
    unfold IekfEnv.advanceI
    simp only [linPred, y.hstamp, sub_self, lt_irrefl, if_false]
  obtain ⟨x', h1, h2⟩ := iekf_step_here A b Q chi tol iters ls lsFuel hit h01 none y hR hy
    (show (linPred A b Q u τ y.stamp x).state.stamp = some y.stamp from rfl) (linPred_pd A b Q hP hA hQ)
  refine ⟨x', ?_, h2⟩
  rw [← h1]
  unfold IekfEnv.correctI IekfEnv.correctT
  rw [hadv, hadv2]

end ekf

/-! ### C93 -/

/-- C93: the iterated filter. On a linear system its covariances and stamps are those of the EKF in the whole run, for every step
tolerance, number of iterations and with or without line search; with tolerance 0 (and no line search) so are its means. -/
theorem C93_iterated (A : Inp U → ℝ → Mat n n) (b : Inp U → ℝ → Vec n) (Q : Inp U → ℝ → Mat n n) (chi chi' : ℕ → ℝ)
    (hA : ∀ u dt, 0 ≤ dt → IsUnit (A u dt).det) (hQ : ∀ u dt, 0 ≤ dt → (Q u dt).PosSemidef)
    (tol : ℝ) (iters : ℕ) (ls : Bool) (lsFuel : ℕ) (hit : iters ≠ 0) (h01 : ls = true → 0 < tol ∧ tol < 1)
    (x0 : SWC (Vec n) n) (t0 : ℝ) (hx : x0.state.stamp = some t0) (hP : x0.cov.PosDef)
    (ins : List (StInp U)) (meas : List (StMeas (Vec n) n)) (hlog : LinearLog (fun _ => True) t0 ins meas) :
    ∃ rs rs', runFilter (ekfApi (linFilter A b Q chi)) x0 ins meas = .ok rs ∧
      runFilter (iekfApi (vecIekf (linProcModel A b Q) false chi' tol iters ls) (lsFuel + 1)) x0 ins meas = .ok rs' ∧
      rs'.map (fun r => (r.state.stamp, r.cov)) = rs.map (fun r => (r.state.stamp, r.cov)) ∧ (tol ≤ 0 → rs' = rs) := by
  obtain ⟨rs, rs', h1, h2, h3⟩ := run_agree
    (f := ekfApi (linFilter A b Q chi)) (g := iekfApi (vecIekf (linProcModel A b Q) false chi' tol iters ls) (lsFuel + 1))
    (okI := fun _ => True)
    (fun τ x x' => x.state.stamp = some τ ∧ x'.state.stamp = some τ ∧ x.cov.PosDef ∧ x'.cov = x.cov ∧ (tol ≤ 0 → x' = x))
    rfl rfl rfl rfl
    (by
      rintro τ t u x x' ⟨hs, hs', hp, hc, hv⟩ ht -
      have h1 := ekf_step_predict A b Q chi ⟨u.value, some u.stamp⟩ hs ht hp (hA _ _ (by linarith)) (hQ _ _ (by linarith))
      have h2 := ekf_step_predict A b Q chi' ⟨u.value, some u.stamp⟩ hs' ht (by rw [hc]; exact hp) (hA _ _ (by linarith))
        (hQ _ _ (by linarith))
      refine ⟨linPred A b Q ⟨u.value, some u.stamp⟩ τ t x, linPred A b Q ⟨u.value, some u.stamp⟩ τ t x', ?_, ?_, rfl, rfl,
        linPred_pd A b Q hp (hA _ _ (by linarith)) (hQ _ _ (by linarith)), ?_,
        fun h => ?_⟩
      · unfold predictTo
        rw [show (ekfApi (linFilter A b Q chi)).xstamp x = some τ from hs]
        exact h1
      · unfold predictTo
        rw [show (iekfApi (vecIekf (linProcModel A b Q) false chi' tol iters ls) (lsFuel + 1)).xstamp x' = some τ from hs']
        exact h2
      · unfold linPred; simp only [hc]
      · rw [hv h])
    (by
      rintro τ u y x x' ⟨hs, hs', hp, hc, hv⟩ hy - ⟨C, R, hR, hC⟩
      rcases hy with hy | hy
      · subst hy
        obtain ⟨z', k1, k2, k3, k4⟩ := iekf_step_here A b Q chi' tol iters ls lsFuel hit h01 (some ⟨u.value, some u.stamp⟩) y hR hC hs'
          (by rw [hc]; exact hp)
        refine ⟨linPost C R y.meas.value y.stamp x, z', ekf_step_here A b Q chi _ y hR hC hs hp, k1, rfl, k3, linPost_pd hR hp, ?_, fun h => ?_⟩
        · rw [k2]; unfold linPost; simp only [hc]
        · rw [k4 h, hv h]
      · have h0 : (0 : ℝ) < 1 / 10 ^ 11 := by positivity
        have hA' := hA ⟨u.value, some u.stamp⟩ (y.stamp - τ) (by linarith)
        have hQ' := hQ ⟨u.value, some u.stamp⟩ (y.stamp - τ) (by linarith)
        obtain ⟨z', k1, k2, k3, k4⟩ := iekf_step_later A b Q chi' tol iters ls lsFuel hit h01 ⟨u.value, some u.stamp⟩ y hR hC hs'
          (by rw [hc]; exact hp) hA' hQ' (by linarith)
        refine ⟨linPost C R y.meas.value y.stamp (linPred A b Q ⟨u.value, some u.stamp⟩ τ y.stamp x), z',
          ekf_step_later A b Q chi _ y hR hC hs hp hA' hQ' hy, k1, rfl, k3,
          linPost_pd hR (linPred_pd A b Q hp hA' hQ'), ?_, fun h => ?_⟩
        · rw [k2]; unfold linPost linPred; simp only [hc]
        · rw [k4 h, hv h])
    (t0 := t0) (x0 := x0) (x0' := x0) ⟨hx, hx, hP, rfl, fun _ => rfl⟩ hx hx hlog
  refine ⟨rs, rs', h1, h2, ?_, fun ht => ?_⟩
  · clear h1 h2
    induction h3 with
    | nil => rfl
    | cons h _ ih =>
      obtain ⟨t, a1, a2, -, a3, -⟩ := h
      simp [a1, a2, a3, ih]
  · clear h1 h2
    induction h3 with
    | nil => rfl
    | cons h _ ih =>
      obtain ⟨t, -, -, -, -, a⟩ := h
      rw [a ht, ih]

section spkf
variable (A : ℝ → Mat n n) (B : ℝ → Mat n k) (c : ℝ → Vec n)

/-- The process model `x⁺ = A(dt) x + B(dt) u + c(dt)` driven by noisy inputs: the covariance the EKF needs is that of the input seen
through `B`. -/
noncomputable abbrev inputDriven (chi : ℕ → ℝ) : EkfEnv (Vec n) (Vec k × Mat k k) n :=
  linFilter (fun _ dt => A dt) (fun u dt => B dt *ᵥ u.value.1 + c dt) (fun u dt => B dt * u.value.2 * (B dt)ᵀ) chi

/-- Its prediction. -/
noncomputable def drivenPred (u : StInp (Vec k × Mat k k)) (τ t : ℝ) (x : SWC (Vec n) n) : SWC (Vec n) n :=
  linPred (fun _ dt => A dt) (fun u dt => B dt *ᵥ u.value.1 + c dt) (fun u dt => B dt * u.value.2 * (B dt)ᵀ)
    (⟨u.value, some u.stamp⟩ : Inp (Vec k × Mat k k)) τ t x

theorem drivenPred_pd (u : StInp (Vec k × Mat k k)) {τ t : ℝ} {x : SWC (Vec n) n} (hP : x.cov.PosDef) (hA : IsUnit (A (t - τ)).det)
    (hQ : u.value.2.PosDef) : (drivenPred A B c u τ t x).cov.PosDef :=
  linPred_pd (u := (⟨u.value, some u.stamp⟩ : Inp (Vec k × Mat k k))) (fun _ dt => A dt) _ _ hP hA (psd_conj hQ.posSemidef _)

theorem drivenPred_zero (hA0 : A 0 = 1) (hB0 : B 0 = 0) (hc0 : c 0 = 0) (u : StInp (Vec k × Mat k k)) {τ : ℝ} {x : SWC (Vec n) n}
    (hx : x.state.stamp = some τ) : drivenPred A B c u τ τ x = x := by
  obtain ⟨⟨v, s⟩, P⟩ := x
  simp only at hx
  subst hx
  unfold drivenPred linPred
  simp [hA0, hB0, hc0]

theorem driven_predict (chi : ℕ → ℝ) {x : SWC (Vec n) n} (hP : x.cov.PosDef) {τ t : ℝ} (hx : x.state.stamp = some τ)
    (u : StInp (Vec k × Mat k k)) (hQ : u.value.2.PosDef) (ht : τ ≤ t) (hA : IsUnit (A (t - τ)).det) :
    predictTo (ekfApi (inputDriven A B c chi)) x u t = .ok (drivenPred A B c u τ t x) := by
  unfold predictTo
  rw [show (ekfApi (inputDriven A B c chi)).xstamp x = some τ from hx]
  exact ekf_step_predict _ _ _ chi _ hx ht hP hA (psd_conj hQ.posSemidef _)

theorem driven_correct (chi : ℕ → ℝ) (hA0 : A 0 = 1) (hB0 : B 0 = 0) (hc0 : c 0 = 0) {x : SWC (Vec n) n} (hP : x.cov.PosDef) {τ : ℝ}
    (hx : x.state.stamp = some τ) (u : StInp (Vec k × Mat k k)) (hQ : u.value.2.PosDef) (y : StMeas (Vec n) n)
    {C : Mat y.meas.m n} {R : Mat y.meas.m y.meas.m} (hR : R.PosDef) (hC : y.meas.model = linMeasModel C R)
    (hy : y.stamp = τ ∨ y.stamp - τ > 1 / 10 ^ 11) (hA : IsUnit (A (y.stamp - τ)).det) :
    (ekfApi (inputDriven A B c chi)).correct x y u = .ok (linPost C R y.meas.value y.stamp (drivenPred A B c u τ y.stamp x)) := by
  rcases hy with hy | hy
  · subst hy
    rw [drivenPred_zero A B c hA0 hB0 hc0 u hx]
    exact ekf_step_here _ _ _ chi _ y hR hC hx hP
  · exact ekf_step_later _ _ _ chi _ y hR hC hx hP hA (psd_conj hQ.posSemidef _) hy

theorem spkf_step_predict (method : String) (hm : method ∈ ["unscented", "cubature", "gh"]) (hn : n ≠ 0) (iter : Bool) (chi : ℕ → ℝ)
    {x : SWC (Vec n) n} (hP : x.cov.PosDef) {τ t : ℝ} (hx : x.state.stamp = some τ) (u : StInp (Vec k × Mat k k))
    (hQ : u.value.2.PosDef) (ht : τ ≤ t) :
    (linSpkf A B c method false iter chi).predict x (some ⟨u.value.1, some u.stamp, some u.value.2⟩) (some (t - τ)) none
      = .ok (drivenPred A B c u τ t x) := by
  have h := C14_predict_linear A B c method hm hn false iter chi x hP τ hx ⟨u.value.1, some u.stamp, some u.value.2⟩ u.value.2 hQ
    (t - τ) (by linarith)
  have e : (linSpkf A B c method false iter chi).predict x (some ⟨u.value.1, some u.stamp, some u.value.2⟩) (some (t - τ)) none
      = (linSpkf A B c method false iter chi).predict x (some ⟨u.value.1, some u.stamp, some u.value.2⟩) (some (t - τ))
        (some u.value.2) := rfl
  rw [e, h]
  unfold drivenPred linPred
  simp only [add_assoc]
  rw [show τ + (t - τ) = t by ring]

theorem spkf_step_correct (method : String) (hm : method ∈ ["unscented", "cubature", "gh"]) (hn : n ≠ 0) (iter : Bool) (chi : ℕ → ℝ)
    {x : SWC (Vec n) n} (hP : x.cov.PosDef) {τ : ℝ} (hx : x.state.stamp = some τ) (u : StInp (Vec k × Mat k k))
    (hQ : u.value.2.PosDef) (y : StMeas (Vec n) n) {C : Mat y.meas.m n} {R : Mat y.meas.m y.meas.m} (hR : R.PosDef)
    (hy : y.meas.model = linMeasModel C R) (ht : τ ≤ y.stamp) (hA : IsUnit (A (y.stamp - τ)).det) :
    (linSpkf A B c method false iter chi).correct x y.meas (some ⟨u.value.1, some u.stamp, some u.value.2⟩) none
      = .ok (linPost C R y.meas.value y.stamp (drivenPred A B c u τ y.stamp x)) := by
  set z := drivenPred A B c u τ y.stamp x with hz
  have hzP : z.cov.PosDef := drivenPred_pd A B c u hP hA hQ
  have hadv : (linSpkf A B c method false iter chi).advance x y.meas (some ⟨u.value.1, some u.stamp, some u.value.2⟩) = .ok z := by
    unfold SpkfEnv.advance
    simp only [hx, y.hstamp]
    rw [if_neg (by linarith)]
    exact spkf_step_predict A B c method hm hn iter chi hP hx u hQ ht
  have e : (linSpkf A B c method false iter chi).correct x y.meas (some ⟨u.value.1, some u.stamp, some u.value.2⟩) none
      = (linSpkf A B c method false iter chi).correct z y.meas none (some false) := by
    have hadv2 : (linSpkf A B c method false iter chi).advance z y.meas none = .ok z := by
      unfold SpkfEnv.advance
      simp only [hz, drivenPred, linPred, y.hstamp, sub_self, lt_irrefl, if_false]
    unfold SpkfEnv.correct
    rw [hadv, hadv2]
    rfl
  rw [e]
  have hzs : z.state.stamp = some y.stamp := rfl
  clear_value z
  clear hadv e hz
  obtain ⟨⟨m, value, stamp, model⟩, ys, hst⟩ := y
  simp only at hy C R hst hzs
  subst hy hst
  exact spkf_correct_linear (linSpkf A B c method false iter chi) (fun _ _ => rfl) hm hn C R hR value ys z hzP hzs

/-- C93: the sigma point filters. On a linear system driven by noisy inputs the unscented, cubature and Gauss-Hermite filters, with
or without mean iteration, and the EKF all succeed and return the same estimates, in mean, covariance and stamp. -/
theorem C93_sigma_point (chi chi' : ℕ → ℝ) (method : String) (hm : method ∈ ["unscented", "cubature", "gh"]) (hn : n ≠ 0) (iter : Bool)
    (hA : ∀ dt, 0 ≤ dt → IsUnit (A dt).det) (hA0 : A 0 = 1) (hB0 : B 0 = 0) (hc0 : c 0 = 0)
    (x0 : SWC (Vec n) n) (t0 : ℝ) (hx : x0.state.stamp = some t0) (hP : x0.cov.PosDef)
    (ins : List (StInp (Vec k × Mat k k))) (meas : List (StMeas (Vec n) n))
    (hlog : LinearLog (fun u => u.value.2.PosDef) t0 ins meas) :
    ∃ rs, runFilter (ekfApi (inputDriven A B c chi)) x0 ins meas = .ok rs ∧
      runFilter (spkfApi (linSpkf A B c method false iter chi')) x0 ins meas = .ok rs := by
  obtain ⟨rs, rs', h1, h2, h3⟩ := run_agree
    (f := ekfApi (inputDriven A B c chi)) (g := spkfApi (linSpkf A B c method false iter chi'))
    (okI := fun u => u.value.2.PosDef)
    (fun τ x x' => x.state.stamp = some τ ∧ x.cov.PosDef ∧ x' = x)
    rfl rfl rfl rfl
    (by
      rintro τ t u x x' ⟨hs, hp, rfl⟩ ht hu
      have hA' := hA (t - τ) (by linarith)
      refine ⟨drivenPred A B c u τ t x', drivenPred A B c u τ t x', driven_predict A B c chi hp hs u hu ht hA', ?_, rfl,
        drivenPred_pd A B c u hp hA' hu, rfl⟩
      unfold predictTo
      rw [show (spkfApi (linSpkf A B c method false iter chi')).xstamp x' = some τ from hs]
      exact spkf_step_predict A B c method hm hn iter chi' hp hs u hu ht)
    (by
      rintro τ u y x x' ⟨hs, hp, rfl⟩ hy hu ⟨C, R, hR, hC⟩
      have h0 : (0 : ℝ) < 1 / 10 ^ 11 := by positivity
      have hle : τ ≤ y.stamp := by
        rcases hy with hy | hy
        · exact hy.ge
        · linarith
      have hA' := hA (y.stamp - τ) (by linarith)
      exact ⟨linPost C R y.meas.value y.stamp (drivenPred A B c u τ y.stamp x'),
        linPost C R y.meas.value y.stamp (drivenPred A B c u τ y.stamp x'),
        driven_correct A B c chi hA0 hB0 hc0 hp hs u hu y hR hC hy hA',
        spkf_step_correct A B c method hm hn iter chi' hp hs u hu y hR hC hle hA', rfl,
        linPost_pd hR (drivenPred_pd A B c u hp hA' hu), rfl⟩)
    (t0 := t0) (x0 := x0) (x0' := x0) ⟨hx, hP, rfl⟩ hx hx hlog
  refine ⟨rs, h1, ?_⟩
  rw [h2]
  congr 1
  clear h1 h2
  induction h3 with
  | nil => rfl
  | cons h _ ih =>
    obtain ⟨t, -, -, a⟩ := h
    rw [a, ih]

/-- The condition on the stamps is needed: a measurement that is later than the estimate by at most `1e-11` is fused by the EKF at the
time of the estimate, and by the sigma point filters at its own time. -/
theorem C93_close_stamps (chi chi' : ℕ → ℝ) (method : String) (hm : method ∈ ["unscented", "cubature", "gh"]) (hn : n ≠ 0) (iter : Bool)
    {x : SWC (Vec n) n} (hP : x.cov.PosDef) {τ : ℝ} (hx : x.state.stamp = some τ) (u : StInp (Vec k × Mat k k))
    (hQ : u.value.2.PosDef) (y : StMeas (Vec n) n) (hl : LinearMeas y) (hlt : τ < y.stamp) (hle : y.stamp - τ ≤ 1 / 10 ^ 11)
    (hA : IsUnit (A (y.stamp - τ)).det) :
    ∃ z z', (ekfApi (inputDriven A B c chi)).correct x y u = .ok z ∧
      (spkfApi (linSpkf A B c method false iter chi')).correct x y u = .ok z' ∧
      z.state.stamp = some τ ∧ z'.state.stamp = some y.stamp := by
  obtain ⟨C, R, hR, hC⟩ := hl
  obtain ⟨z, h1, h2, -⟩ := lin_correct (fun _ dt => A dt) (fun u dt => B dt *ᵥ u.value.1 + c dt)
    (fun u dt => B dt * u.value.2 * (B dt)ᵀ) chi (some (⟨u.value, some u.stamp⟩ : Inp (Vec k × Mat k k))) y hR hC hx hP hlt.le
    (not_lt.mpr hle)
  exact ⟨z, _, h1, spkf_step_correct A B c method hm hn iter chi' hP hx u hQ y hR hC hlt.le hA, h2, rfl⟩

end spkf

/-! ### A log -/

theorem exLog93 : LinearLog (fun u : StInp (Vec 1 × Mat 1 1) => u.value.2.PosDef) 0
    [⟨(fun _ => 1, 1), 0⟩, ⟨(fun _ => 2, 1), 1⟩, ⟨(fun _ => 2, 1), 2⟩]
    [⟨linMeas (1 : Mat 1 1) 1 (fun _ => 3) (some (1 / 2)), 1 / 2, rfl⟩, ⟨linMeas (1 : Mat 1 1) 1 (fun _ => 4) (some 1), 1, rfl⟩] where
  ins_fresh := .inr ⟨⟨(fun _ => 1, 1), 0⟩, by simp, by simp⟩
  meas_fresh := .inr ⟨⟨linMeas (1 : Mat 1 1) 1 (fun _ => 3) (some (1 / 2)), 1 / 2, rfl⟩, by simp, by norm_num⟩
  ins_ok := by
    intro u hu
    simp only [List.mem_cons, List.not_mem_nil, or_false] at hu
    rcases hu with rfl | rfl | rfl <;> exact PosDef.one
  linear := by
    intro y hy
    simp only [List.mem_cons, List.not_mem_nil, or_false] at hy
    rcases hy with rfl | rfl <;> exact ⟨(1 : Mat 1 1), (1 : Mat 1 1), PosDef.one, rfl⟩
  apart := by
    intro y hy s hs
    simp only [List.mem_cons, List.not_mem_nil, or_false] at hy
    simp only [List.map_cons, List.map_nil, List.cons_append, List.nil_append, List.mem_cons, List.not_mem_nil, or_false] at hs
    unfold Distinguishable
    rcases hy with rfl | rfl <;> rcases hs with rfl | rfl | rfl | rfl | rfl | rfl <;>
      first | (left; rfl) | (right; norm_num [abs_of_pos, abs_of_neg])

/-- The hypotheses of C93 hold for a random walk driven by a measured rate, with two measurements, one between two inputs. -/
example : ∃ rs, runFilter (spkfApi (linSpkf (n := 1) (k := 1) (fun _ => 1) (fun dt => dt • 1) 0 "gh" false true (fun _ => 6))) (est1 0)
    [⟨(fun _ => 1, 1), 0⟩, ⟨(fun _ => 2, 1), 1⟩, ⟨(fun _ => 2, 1), 2⟩]
    [⟨linMeas (1 : Mat 1 1) 1 (fun _ => 3) (some (1 / 2)), 1 / 2, rfl⟩, ⟨linMeas (1 : Mat 1 1) 1 (fun _ => 4) (some 1), 1, rfl⟩] = .ok rs := by
  obtain ⟨rs, -, h⟩ := C93_sigma_point (fun _ => 1) (fun dt => dt • 1) 0 (fun _ => 6) (fun _ => 6) "gh" (by simp) (by norm_num) true
    (by simp) rfl (by simp) rfl (est1 0) 0 rfl PosDef.one _ _ exLog93
  exact ⟨rs, h⟩

end Verif
