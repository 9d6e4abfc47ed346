import Verif.Props.GaussNoise

/-!
C119: the outlier test on a linear system with white Gaussian noise. A single genuine measurement is rejected with probability 0.01;
a run with `reject_outliers=True` that fuses `K` measurements keeps them all with probability `0.99 ^ K` only.
-/

set_option linter.unusedSectionVars false
set_option linter.unusedVariables false

namespace Verif

open Matrix MeasureTheory ProbabilityTheory

variable {Ω : Type} {n : ℕ} {U : Type} [MeasurableSpace Ω] {μ : Measure Ω}

/-! ### Specification -/

/-- The linear filter with `reject_outliers=True`; `chi m` is `chi2.ppf(0.99, df=m)`. -/
noncomputable abbrev rejFilter (A : Inp U → ℝ → Mat n n) (b : Inp U → ℝ → Vec n) (Q : Inp U → ℝ → Mat n n) (chi : ℕ → ℝ) :
    EkfEnv (Vec n) U n := vecEnv (linProcModel A b Q) true chi

/-- In the outcome `ω`, performing the events with the filter `e` from the estimate `x` on, every correction reports
`is_outlier = False` in its details. -/
def NoneRejected (e : EkfEnv (Vec n) U n) (ω : Ω) : List (Ev (StInp U) (RMeas Ω n)) → SWC (Vec n) n → Prop
  | [], _ => True
  | .record :: es, x => NoneRejected e ω es x
  | .predict u t :: es, x => ∃ x', predictTo (randApi e ω) x u t = .ok x' ∧ NoneRejected e ω es x'
  | .correct y u :: es, x => ∃ x' d, e.correctD x (y.at ω).meas (some ⟨u.value, some u.stamp⟩) none none = .ok (x', some d) ∧
      d.isOutlier = false ∧ NoneRejected e ω es x'

/-! ### Single corrections -/

section steps
variable (A : Inp U → ℝ → Mat n n) (b : Inp U → ℝ → Vec n) (Q : Inp U → ℝ → Mat n n) (chi : ℕ → ℝ)

theorem rej_predict (x : SWC (Vec n) n) (u : Option (Inp U)) (dt : Option ℝ) (xj : Option (St (Vec n))) :
    (rejFilter A b Q chi).predict x u dt xj = (linFilter A b Q chi).predict x u dt xj := rfl

theorem rej_hereD {x : SWC (Vec n) n} {τ : ℝ} (u : Option (Inp U)) {m : ℕ} (C : Mat m n) {R : Mat m m} (v : Vec m) (s : ℝ)
    (hR : R.PosDef) (hx : x.state.stamp = some τ) (hP : x.cov.PosSemidef) (h1 : τ ≤ s) (h2 : ¬ s - τ > 1 / 10 ^ 11) :
    (rejFilter A b Q chi).correctD x (linMeas C R v (some s)) u none none
      = if (v - C *ᵥ x.state.value) ⬝ᵥ (C * x.cov * Cᵀ + R)⁻¹ *ᵥ (v - C *ᵥ x.state.value) > chi m
        then .ok (x, some ⟨m, v - C *ᵥ x.state.value, C * x.cov * Cᵀ + R, true⟩)
        else .ok (linPost C R v τ x, some ⟨m, v - C *ᵥ x.state.value, C * x.cov * Cᵀ + R, false⟩) := by
  have h3 := psd_step_hereD A b Q chi u C v s hR hx hP h1 h2
  rw [C06_no_predict (linFilter A b Q chi) x (linMeas C R v (some s)) u none none τ s hx rfl
    (le_trans (by norm_num) (sub_nonneg.mpr h1)) (not_lt.mp h2)] at h3
  rw [C06_no_predict (rejFilter A b Q chi) x (linMeas C R v (some s)) u none none τ s hx rfl
    (le_trans (by norm_num) (sub_nonneg.mpr h1)) (not_lt.mp h2)]
  have hd : (innovCov x (linMeas C R v (some s)) none).det ≠ 0 := pd_det (innov_pd hP C hR)
  have hf := fuse_reject (rejFilter A b Q chi) x (linMeas C R v (some s)) none (C *ᵥ x.state.value) rfl hd
  rw [← h3]
  exact hf

theorem rej_laterD {x : SWC (Vec n) n} {τ : ℝ} (u : StInp U) {m : ℕ} (C : Mat m n) {R : Mat m m} (v : Vec m) (s : ℝ) (hR : R.PosDef)
    (hx : x.state.stamp = some τ) (hP : x.cov.PosSemidef)
    (hQ : (Q ⟨u.value, some u.stamp⟩ (s - τ)).PosSemidef) (hlt : s - τ > 1 / 10 ^ 11) :
    (rejFilter A b Q chi).correctD x (linMeas C R v (some s)) (some ⟨u.value, some u.stamp⟩) none none
      = (rejFilter A b Q chi).correctD (linPred A b Q ⟨u.value, some u.stamp⟩ τ s x) (linMeas C R v (some s)) none none none := by
  have h0 : (0 : ℝ) < 1 / 10 ^ 11 := by positivity
  have hp := psd_step_predict A b Q chi u hx (by linarith : τ ≤ s) hP hQ
  unfold predictTo at hp
  rw [show (ekfApi (linFilter A b Q chi)).xstamp x = some τ from hx] at hp
  have hp' : (rejFilter A b Q chi).predict x (some ⟨u.value, some u.stamp⟩) (some (s - τ)) none
      = .ok (linPred A b Q ⟨u.value, some u.stamp⟩ τ s x) := hp
  have ha : (rejFilter A b Q chi).advance x (linMeas C R v (some s)) (some ⟨u.value, some u.stamp⟩)
      = .ok (linPred A b Q ⟨u.value, some u.stamp⟩ τ s x) := by
    unfold EkfEnv.advance
    simp only [hx, linMeas]
    rw [if_neg (not_lt.mpr (le_trans (by norm_num : (-(10 ^ 10) : ℝ) ≤ 0) (by linarith))), if_pos hlt]
    exact hp'
  have ha' : (rejFilter A b Q chi).advance (linPred A b Q ⟨u.value, some u.stamp⟩ τ s x) (linMeas C R v (some s)) none
      = .ok (linPred A b Q ⟨u.value, some u.stamp⟩ τ s x) := by
    unfold EkfEnv.advance
    simp only [linMeas, linPred]
    rw [if_neg (by rw [sub_self]; norm_num)]
  unfold EkfEnv.correctD
  rw [ha, ha']

end steps

/-- A correction that does not flag the measurement is the correction without a test. -/
theorem correctD_unflagged (p : ProcModel (Vec n) U n) (chi : ℕ → ℝ) {x x' : SWC (Vec n) n} {y : Meas (Vec n) n} {u : Option (Inp U)}
    {xj : Option (St (Vec n))} {d : CorrectDetails} (h : (vecEnv p true chi).correctD x y u xj none = .ok (x', some d))
    (hd : d.isOutlier = false) : (vecEnv p false chi).correctD x y u xj none = .ok (x', some d) := by
  unfold EkfEnv.correctD at h ⊢
  obtain ⟨xp, h1, h2⟩ := bind_ok h
  have h1' : (vecEnv p false chi).advance x y u = .ok xp := h1
  rw [h1']
  show (vecEnv p false chi).fuse xp y xj false = _
  have h2 : (vecEnv p true chi).fuse xp y xj true = .ok (x', some d) := h2
  cases hy : y.model.evaluate xp.state with
  | none =>
    rw [fuse_none _ _ _ _ _ hy] at h2
    cases h2
  | some yc =>
    by_cases hdet : (innovCov xp y xj).det = 0
    · rw [fuse_singular _ _ _ _ _ yc hy hdet] at h2
      cases h2
    · rw [fuse_reject _ _ _ _ yc hy hdet] at h2
      split at h2
      · cases h2
        cases hd
      · exact h2

/-- If nothing is rejected, the run is the run without a test. -/
theorem exec_unflagged (p : ProcModel (Vec n) U n) (chi : ℕ → ℝ) (ω : Ω) :
    ∀ (es : List (Ev (StInp U) (RMeas Ω n))) (x : SWC (Vec n) n), NoneRejected (vecEnv p true chi) ω es x →
      exec (randApi (vecEnv p true chi) ω) es x = exec (randApi (vecEnv p false chi) ω) es x
  | [], x, h => rfl
  | .record :: es, x, h => by
    unfold exec
    rw [exec_unflagged p chi ω es x h]
  | .predict u t :: es, x, h => by
    obtain ⟨x', h1, h2⟩ := h
    have h1' : predictTo (randApi (vecEnv p false chi) ω) x u t = .ok x' := h1
    unfold exec
    rw [h1, h1']
    exact exec_unflagged p chi ω es x' h2
  | .correct y u :: es, x, h => by
    obtain ⟨x', d, h1, hd, h2⟩ := h
    have h3 := correctD_unflagged p chi h1 hd
    have e1 : (randApi (vecEnv p true chi) ω).correct x y u = .ok x' := by
      show ((vecEnv p true chi).correctD x (y.at ω).meas (some ⟨u.value, some u.stamp⟩) none none).map Prod.fst = _
      rw [h1]; rfl
    have e2 : (randApi (vecEnv p false chi) ω).correct x y u = .ok x' := by
      show ((vecEnv p false chi).correctD x (y.at ω).meas (some ⟨u.value, some u.stamp⟩) none none).map Prod.fst = _
      rw [h3]; rfl
    unfold exec
    rw [e1, e2]
    exact exec_unflagged p chi ω es x' h2

/-! ### The innovation -/

theorem innov_facts [IsProbabilityMeasure μ] (X : ℝ → Ω → Vec n) {x : Ω → SWC (Vec n) n} {P : Mat n n} {τ : ℝ} {y : RMeas Ω n}
    {D : Submodule ℝ (Ω → ℝ)} {l : List (Noise Ω)} (hx : ∀ i, (fun ω => (x ω).state.value i) ∈ D)
    (hw : White μ CovRel.exact (⟨n, fun ω => X τ ω - (x ω).state.value, P⟩ :: measNoise X τ y :: l))
    (h : Ahead μ D (⟨n, fun ω => X τ ω - (x ω).state.value, P⟩ :: measNoise X τ y :: l)) :
    ∃ hz : SqInt μ (fun ω => y.value ω - y.C *ᵥ (x ω).state.value),
      rvMean μ (fun ω => y.value ω - y.C *ᵥ (x ω).state.value) = 0 ∧
      rvCross μ (fun ω => y.value ω - y.C *ᵥ (x ω).state.value) (fun ω => y.value ω - y.C *ᵥ (x ω).state.value)
        = y.C * P * y.Cᵀ + y.R ∧
      D ≤ orthSub μ (fun ω => y.value ω - y.C *ᵥ (x ω).state.value) hz ∧
      ∀ j, (fun ω => (y.value ω - y.C *ᵥ (x ω).state.value) j) ∈ addData D y := by
  obtain ⟨s1, h1⟩ := h ⟨n, fun ω => X τ ω - (x ω).state.value, P⟩ (by simp)
  obtain ⟨s2, h2⟩ := h (measNoise X τ y) (by simp)
  have s1 : SqInt μ (fun ω => X τ ω - (x ω).state.value) := s1
  have s2 : SqInt μ (fun ω => y.value ω - y.C *ᵥ X τ ω) := s2
  have m1 : rvMean μ (fun ω => X τ ω - (x ω).state.value) = 0 := hw.mean ⟨n, fun ω => X τ ω - (x ω).state.value, P⟩ (by simp)
  have m2 : rvMean μ (fun ω => y.value ω - y.C *ᵥ X τ ω) = 0 := hw.mean (measNoise X τ y) (by simp)
  have c0 : rvCross μ (fun ω => X τ ω - (x ω).state.value) (fun ω => y.value ω - y.C *ᵥ X τ ω) = 0 :=
    (List.pairwise_cons.mp hw.uncorr).1 (measNoise X τ y) (by simp)
  have c1 : rvCross μ (fun ω => X τ ω - (x ω).state.value) (fun ω => X τ ω - (x ω).state.value) = P :=
    hw.cov ⟨n, fun ω => X τ ω - (x ω).state.value, P⟩ (by simp)
  have c2 : rvCross μ (fun ω => y.value ω - y.C *ᵥ X τ ω) (fun ω => y.value ω - y.C *ᵥ X τ ω) = y.R :=
    hw.cov (measNoise X τ y) (by simp)
  have ez : (fun ω => y.value ω - y.C *ᵥ (x ω).state.value)
      = fun ω => y.C *ᵥ (X τ ω - (x ω).state.value) + (1 : Mat y.m y.m) *ᵥ (y.value ω - y.C *ᵥ X τ ω) := by
    funext ω
    rw [one_mulVec, mulVec_sub]
    abel
  have sz : SqInt μ (fun ω => y.value ω - y.C *ᵥ (x ω).state.value) := by
    rw [ez]; exact (s1.mulVec _).add (s2.mulVec _)
  have hDy := (addData_le (D := D) (S := addData D y) (y := y)).mp (le_refl _)
  refine ⟨sz, ?_, ?_, orth_comb s1 s2 h1 h2 _ _ sz ez, fun j => ?_⟩
  · rw [ez, rvMean_add (s1.mulVec y.C) (s2.mulVec 1), rvMean_mulVec s1, rvMean_mulVec s2, m1, m2]
    simp
  · rw [ez, rvCross_comb s1 s2 c0, c1, c2]
    simp
  · exact (addData D y).sub_mem (hDy.2 j) (hDy.1 (mem_mulVec hx y.C j))

/-- The innovation passes the test with probability 0.99, whatever the data before. -/
theorem gate_step [IsProbabilityMeasure μ] {G : Submodule ℝ (Ω → ℝ)} (hG : ∀ g ∈ G, HasGaussianLaw g μ) {m : ℕ} {z : Ω → Vec m}
    {S : Mat m m} (hS : S.PosDef) (hzG : ∀ j, (fun ω => z ω j) ∈ G) (h0 : rvMean μ z = 0) (hc : rvCross μ z z = S)
    {D : Submodule ℝ (Ω → ℝ)} (hDG : D ≤ G) (hz : SqInt μ z) (ho : D ≤ orthSub μ z hz) {q : ℝ → ℝ → ℝ} (hq : IsPpf q) (hm : 0 < m)
    {κ : Type} [Fintype κ] {W : κ → Ω → ℝ} (hW : ∀ j, W j ∈ D) {T : Set (κ → ℝ)} (hT : MeasurableSet T) :
    μ {ω | ¬ z ω ⬝ᵥ S⁻¹ *ᵥ z ω > q (99 / 100) m ∧ (fun j => W j ω) ∈ T} = ENNReal.ofReal (99 / 100) * μ {ω | (fun j => W j ω) ∈ T} := by
  have hi : IndepFun z (fun ω j => W j ω) μ := gauss_indep hG (Z := fun j ω => z ω j) hzG (fun j => hDG (hW j))
    (fun j => congrFun h0 j) (fun i j => (ho (hW j)).2 i)
  have hmeas : Measurable fun v : Vec m => v ⬝ᵥ S⁻¹ *ᵥ v := by
    unfold dotProduct mulVec dotProduct
    fun_prop
  have hlaw := quad_chi2 hS (gauss_law hG hzG h0 hc)
  have h1 := hi.measure_inter_preimage_eq_mul {v : Vec m | v ⬝ᵥ S⁻¹ *ᵥ v ≤ q (99 / 100) m} T (hmeas measurableSet_Iic) hT
  have h2 : μ (z ⁻¹' {v : Vec m | v ⬝ᵥ S⁻¹ *ᵥ v ≤ q (99 / 100) m}) = ENNReal.ofReal (99 / 100) :=
    (law_apply hlaw measurableSet_Iic).trans (hq m _ hm (by norm_num) (by norm_num))
  rw [h2] at h1
  rw [← show μ ((fun ω j => W j ω) ⁻¹' T) = μ {ω | (fun j => W j ω) ∈ T} from rfl, ← h1]
  congr 1
  ext ω
  exact and_congr not_lt Iff.rfl

/-- C119: in one correction with the outlier test, by a measurement that follows its model, the innovation is normal with the
covariance `S` of the details, and the measurement is flagged as an outlier (and not used) with probability 0.01. -/
theorem C119_correct [IsProbabilityMeasure μ] (A : Inp U → ℝ → Mat n n) (b : Inp U → ℝ → Vec n) (Q : Inp U → ℝ → Mat n n) (chi : ℕ → ℝ)
    {X : ℝ → Ω → Vec n} {r : Ω → SWC (Vec n) n} {t : ℝ} {P : Mat n n}
    (h : Honest μ CovRel.exact X r t P) (y : RMeas Ω n) (hy : y.stamp = t) (hR : y.R.PosDef) (hm : 0 < y.m)
    (hw : White μ CovRel.exact [⟨n, fun ω => X t ω - (r ω).state.value, P⟩, measNoise X t y])
    (hg : JointlyGaussian μ [⟨n, fun ω => X t ω - (r ω).state.value, P⟩, measNoise X t y])
    {ppf : ℝ → ℝ → ℝ} (hq : IsPpf ppf) (hchi : ∀ m, chi m = ppf (99 / 100) m) (u : Option (Inp U)) :
    ∃ (z : Ω → Vec y.m) (S : Mat y.m y.m) (flag : Ω → Bool) (x' : Ω → SWC (Vec n) n),
      (∀ ω, (rejFilter A b Q chi).correctD (r ω) (y.at ω).meas u none none = .ok (x' ω, some ⟨y.m, z ω, S, flag ω⟩)) ∧
      (∀ ω, flag ω = true → x' ω = r ω) ∧ μ.map z = normal S ∧
      μ {ω | flag ω = true} = ENNReal.ofReal (1 / 100) := by
  have hG := noiseSpace_gauss hg
  have hx : ∀ i, (fun ω => (X t ω - (r ω).state.value) i) ∈ noiseSpace [⟨n, fun ω => X t ω - (r ω).state.value, P⟩, measNoise X t y] :=
    fun i => noiseSpace_mem (η := ⟨n, fun ω => X t ω - (r ω).state.value, P⟩) (by simp) i
  have hv : ∀ j, (fun ω => (y.value ω - y.C *ᵥ X t ω) j) ∈ noiseSpace [⟨n, fun ω => X t ω - (r ω).state.value, P⟩, measNoise X t y] :=
    fun j => noiseSpace_mem (η := measNoise X t y) (by simp) j
  obtain ⟨z, S, x1, g1, g2, g3⟩ := C105_innovation A b Q chi h y hy hR hw none
  have hD := fun ω => psd_step_hereD A b Q chi none y.C (y.value ω) y.stamp hR (h.stamp ω) (by rw [h.cov]; exact h.psd) (by rw [hy])
    (by rw [hy, sub_self]; exact not_lt.mpr (by positivity))
  have hez : ∀ ω, z ω = y.value ω - y.C *ᵥ (r ω).state.value ∧ S = y.C * P * y.Cᵀ + y.R := by
    intro ω
    have h1 := (g1 ω).symm.trans (hD ω)
    simp only [Except.ok.injEq, Prod.mk.injEq, Option.some.injEq, CorrectDetails.mk.injEq, heq_eq_eq, true_and] at h1
    rw [h.cov] at h1
    exact ⟨h1.2.1, h1.2.2.1⟩
  have hne : Nonempty Ω := by
    by_contra hne
    rw [not_nonempty_iff] at hne
    exact IsProbabilityMeasure.ne_zero μ (Measure.eq_zero_of_isEmpty μ)
  obtain ⟨-, rfl⟩ := hez hne.some
  have hSpd := innov_pd h.psd y.C hR
  have hzG : ∀ j, (fun ω => z ω j) ∈ noiseSpace [⟨n, fun ω => X t ω - (r ω).state.value, P⟩, measNoise X t y] := by
    intro j
    have e : (fun ω => z ω j) = (fun ω => (y.C *ᵥ (X t ω - (r ω).state.value)) j) + fun ω => (y.value ω - y.C *ᵥ X t ω) j := by
      funext ω
      rw [(hez ω).1]
      show (y.value ω - y.C *ᵥ (r ω).state.value) j = (y.C *ᵥ (X t ω - (r ω).state.value)) j + (y.value ω - y.C *ᵥ X t ω) j
      rw [mulVec_sub]
      simp
    rw [e]
    exact Submodule.add_mem _ (mem_mulVec hx y.C j) (hv j)
  have hlaw := gauss_law hG hzG g2 g3
  have hchi2 := quad_chi2 hSpd hlaw
  classical
  refine ⟨z, y.C * P * y.Cᵀ + y.R, fun ω => decide (z ω ⬝ᵥ (y.C * P * y.Cᵀ + y.R)⁻¹ *ᵥ z ω > ppf (99 / 100) y.m),
    fun ω => if z ω ⬝ᵥ (y.C * P * y.Cᵀ + y.R)⁻¹ *ᵥ z ω > ppf (99 / 100) y.m then r ω else linPost y.C y.R (y.value ω) t (r ω),
    fun ω => ?_, fun ω hω => ?_, hlaw, ?_⟩
  · have h1 := rej_hereD A b Q chi u y.C (y.value ω) y.stamp hR (h.stamp ω) (by rw [h.cov]; exact h.psd) (by rw [hy])
      (by rw [hy, sub_self]; exact not_lt.mpr (by positivity))
    rw [h.cov, ← (hez ω).1, hchi] at h1
    show (rejFilter A b Q chi).correctD (r ω) (linMeas y.C y.R (y.value ω) (some y.stamp)) u none none = _
    rw [h1]
    beta_reduce
    by_cases hgt : z ω ⬝ᵥ (y.C * P * y.Cᵀ + y.R)⁻¹ *ᵥ z ω > ppf (99 / 100) y.m
    · rw [if_pos hgt, if_pos hgt, decide_eq_true hgt]
    · rw [if_neg hgt, if_neg hgt, decide_eq_false hgt]
  · exact if_pos (of_decide_eq_true hω)
  · simp only [decide_eq_true_eq]
    refine (law_apply hchi2 measurableSet_Ioi).trans ((chi2_above hq hm (by norm_num) (by norm_num)).trans ?_)
    norm_num

/-! ### Whole runs -/

theorem runEvents_fused {t0 : ℝ} {ins : List (StInp U)} {meas : List (RMeas Ω n)} {y : RMeas Ω n}
    (h : y ∈ fused (runEvents t0 ins meas)) : y ∈ meas := by
  classical
  unfold runEvents at h
  rw [C21_fused_exactly_once] at h
  have hr : ∀ y ∈ retained RMeas.stamp t0 meas, y ∈ meas := by
    intro y hy
    unfold retained at hy
    exact (sortByStamp_mem _).mp (List.mem_filter.mp hy).1
  split at h
  · exact hr y (List.mem_filter.mp h).1
  · simp at h

section run
variable [IsProbabilityMeasure μ]
variable (A : Inp U → ℝ → Mat n n) (b : Inp U → ℝ → Vec n) (Q : Inp U → ℝ → Mat n n) (chi : ℕ → ℝ) (X : ℝ → Ω → Vec n)

theorem gate_events (G : Submodule ℝ (Ω → ℝ)) (hG1 : (fun _ => (1 : ℝ)) ∈ G) (hG : ∀ g ∈ G, HasGaussianLaw g μ)
    {q : ℝ → ℝ → ℝ} (hq : IsPpf q) (hchi : ∀ m, chi m = q (99 / 100) m) (hQ : ∀ u dt, 0 ≤ dt → (Q u dt).PosSemidef) :
    ∀ (es : List (Ev (StInp U) (RMeas Ω n))) (x : Ω → SWC (Vec n) n) (P : Mat n n) (τ : ℝ) (D : Submodule ℝ (Ω → ℝ)), P.PosSemidef →
      (∀ ω, (x ω).cov = P) → (∀ ω, (x ω).state.stamp = some τ) → ForwardR τ es → (∀ y ∈ fused es, 0 < y.m) →
      White μ CovRel.exact (⟨n, fun ω => X τ ω - (x ω).state.value, P⟩ :: noises A b Q X τ es) →
      (fun _ => (1 : ℝ)) ∈ D → (∀ i, (fun ω => (x ω).state.value i) ∈ D) →
      Ahead μ D (⟨n, fun ω => X τ ω - (x ω).state.value, P⟩ :: noises A b Q X τ es) →
      (∀ i, (fun ω => X τ ω i) ∈ G) → (∀ η ∈ noises A b Q X τ es, ∀ j, (fun ω => η.val ω j) ∈ G) → D ≤ G →
      ∀ (κ : Type) [Fintype κ] (W : κ → Ω → ℝ), (∀ j, W j ∈ D) → ∀ T : Set (κ → ℝ), MeasurableSet T →
        μ {ω | NoneRejected (rejFilter A b Q chi) ω es (x ω) ∧ (fun j => W j ω) ∈ T}
          = ENNReal.ofReal (99 / 100) ^ (fused es).length * μ {ω | (fun j => W j ω) ∈ T}
  | [], x, P, τ, D, hP, hc, hs, hf, hm, hw, h1, hx, ha, hXG, hnG, hDG, κ, _, W, hW, T, hT => by
    simp [NoneRejected, fused]
  | .record :: es, x, P, τ, D, hP, hc, hs, hf, hm, hw, h1, hx, ha, hXG, hnG, hDG, κ, _, W, hW, T, hT =>
    gate_events G hG1 hG hq hchi hQ es x P τ D hP hc hs hf hm hw h1 hx ha hXG hnG hDG κ W hW T hT
  | .predict u t :: es, x, P, τ, D, hP, hc, hs, hf, hm, hw, h1, hx, ha, hXG, hnG, hDG, κ, _, W, hW, T, hT => by
    have hq' := hQ ⟨u.value, some u.stamp⟩ (t - τ) (by linarith [hf.1])
    have hx' : ∀ i, (fun ω => (linPred A b Q ⟨u.value, some u.stamp⟩ τ t (x ω)).state.value i) ∈ D := by
      intro i
      have e : (fun ω => (linPred A b Q ⟨u.value, some u.stamp⟩ τ t (x ω)).state.value i)
          = (fun ω => (A ⟨u.value, some u.stamp⟩ (t - τ) *ᵥ (x ω).state.value) i)
            + (b ⟨u.value, some u.stamp⟩ (t - τ) i) • (fun _ => (1 : ℝ)) := by
        funext ω
        simp [linPred]
      rw [e]
      exact D.add_mem (mem_mulVec hx _ i) (D.smul_mem _ h1)
    have key := gate_events G hG1 hG hq hchi hQ es (fun ω => linPred A b Q ⟨u.value, some u.stamp⟩ τ t (x ω)) _ t D
      (psd_add (psd_conj hP _) hq') (fun ω => by simp only [linPred, hc]) (fun ω => rfl) hf.2 hm
      (white_predict A b Q X hc hw) h1 hx' (ahead_predict A b Q X ha)
      (mem_proc A b Q X hG1 hXG (hnG (procNoise A b Q X u τ t) (by simp [noises]))) (fun η hη => hnG η (by simp [noises, hη])) hDG
      κ W hW T hT
    refine Eq.trans (congrArg μ ?_) key
    ext ω
    have := psd_step_predict A b Q chi u (hs ω) hf.1 (by rw [hc]; exact hP) hq'
    have hp : predictTo (randApi (rejFilter A b Q chi) ω) (x ω) u t = .ok (linPred A b Q ⟨u.value, some u.stamp⟩ τ t (x ω)) := this
    constructor
    · rintro ⟨⟨x', e1, e2⟩, e3⟩
      rw [hp] at e1
      cases e1
      exact ⟨e2, e3⟩
    · rintro ⟨e2, e3⟩
      exact ⟨⟨_, hp, e2⟩, e3⟩
  | .correct y u :: es, x, P, τ, D, hP, hc, hs, hf, hm, hw, h1, hx, ha, hXG, hnG, hDG, κ, _, W, hW, T, hT => by
    obtain ⟨ht, hR, hf⟩ := hf
    unfold noises at hw ha hnG
    have hD1 : (fun _ => (1 : ℝ)) ∈ addData D y := ((addData_le (D := D) (S := addData D y) (y := y)).mp (le_refl _)).1 h1
    have hm0 : 0 < y.m := hm y (by simp [fused])
    -- the general step, from an estimate at the time `s` of the correction
    have core : ∀ (x : Ω → SWC (Vec n) n) (P : Mat n n) (s : ℝ), P.PosSemidef → (∀ ω, (x ω).cov = P) →
        (∀ ω, (x ω).state.stamp = some s) → s ≤ y.stamp → ¬ y.stamp - s > 1 / 10 ^ 11 → ForwardR s es →
        White μ CovRel.exact (⟨n, fun ω => X s ω - (x ω).state.value, P⟩ :: measNoise X s y :: noises A b Q X s es) →
        (∀ i, (fun ω => (x ω).state.value i) ∈ D) →
        Ahead μ D (⟨n, fun ω => X s ω - (x ω).state.value, P⟩ :: measNoise X s y :: noises A b Q X s es) →
        (∀ i, (fun ω => X s ω i) ∈ G) → (∀ j, (fun ω => (measNoise X s y).val ω j) ∈ G) →
        (∀ η ∈ noises A b Q X s es, ∀ j, (fun ω => η.val ω j) ∈ G) → ∀ uu : Option (Inp U),
        μ {ω | (∃ x' d, (rejFilter A b Q chi).correctD (x ω) (y.at ω).meas uu none none = .ok (x', some d) ∧
            d.isOutlier = false ∧ NoneRejected (rejFilter A b Q chi) ω es x') ∧ (fun j => W j ω) ∈ T}
          = ENNReal.ofReal (99 / 100) ^ ((fused es).length + 1) * μ {ω | (fun j => W j ω) ∈ T} := by
      intro x P s hP hc hs hsy hlt hf hw hx ha hXG hvG hnG uu
      have hyG := mem_meas X hXG hvG
      obtain ⟨k1, k2⟩ := ahead_correct X hP hc hR hx hw ha
      obtain ⟨hz, z0, zc, zo, zD⟩ := innov_facts X hx hw ha
      have hADG : addData D y ≤ G := addData_le.mpr ⟨hDG, hyG⟩
      have hS := innov_pd hP y.C hR
      have key := gate_events G hG1 hG hq hchi hQ es (fun ω => linPost y.C y.R (y.value ω) s (x ω)) _ s (addData D y)
        (kCov_psd hP y.C hR) (fun ω => by simp only [linPost, hc]) (fun ω => rfl) hf (fun y' hy' => hm y' (by simp [fused, hy']))
        (white_correct X hP hc hR hw) hD1 k2 k1 hXG hnG hADG
        (κ ⊕ Fin y.m) (Sum.elim W fun j ω => (y.value ω - y.C *ᵥ (x ω).state.value) j)
        (fun j => by
          cases j with
          | inl j => exact ((addData_le (D := D) (S := addData D y) (y := y)).mp (le_refl _)).1 (hW j)
          | inr j => exact zD j)
        {v | ¬ (fun j => v (Sum.inr j)) ⬝ᵥ (y.C * P * y.Cᵀ + y.R)⁻¹ *ᵥ (fun j => v (Sum.inr j)) > q (99 / 100) y.m
          ∧ (fun j => v (Sum.inl j)) ∈ T}
        (by
          have hm1 : Measurable fun v : Vec y.m => v ⬝ᵥ (y.C * P * y.Cᵀ + y.R)⁻¹ *ᵥ v := by
            unfold dotProduct mulVec dotProduct
            fun_prop
          have hm2 : Measurable fun v : κ ⊕ Fin y.m → ℝ => fun j => v (Sum.inr j) := by fun_prop
          have hm3 : Measurable fun v : κ ⊕ Fin y.m → ℝ => fun j => v (Sum.inl j) := by fun_prop
          exact ((hm1.comp hm2) measurableSet_Ioi).compl.inter (hm3 hT))
      have hstep := gate_step hG hS (fun j => hADG (zD j)) z0 zc hDG hz zo hq hm0 hW hT
      have e1 : {ω | (fun j => Sum.elim W (fun j ω => (y.value ω - y.C *ᵥ (x ω).state.value) j) j ω) ∈
          {v : κ ⊕ Fin y.m → ℝ | ¬ (fun j => v (Sum.inr j)) ⬝ᵥ (y.C * P * y.Cᵀ + y.R)⁻¹ *ᵥ (fun j => v (Sum.inr j)) > q (99 / 100) y.m
            ∧ (fun j => v (Sum.inl j)) ∈ T}}
          = {ω | ¬ (y.value ω - y.C *ᵥ (x ω).state.value) ⬝ᵥ (y.C * P * y.Cᵀ + y.R)⁻¹ *ᵥ (y.value ω - y.C *ᵥ (x ω).state.value)
            > q (99 / 100) y.m ∧ (fun j => W j ω) ∈ T} := rfl
      rw [e1, hstep, ← mul_assoc, ← pow_succ] at key
      rw [← key]
      congr 1
      ext ω
      have hD := rej_hereD A b Q chi uu y.C (y.value ω) y.stamp hR (hs ω) (by rw [hc]; exact hP) hsy hlt
      rw [hc, hchi] at hD
      constructor
      · rintro ⟨⟨x', d, d1, d2, d3⟩, d4⟩
        have d1 : (rejFilter A b Q chi).correctD (x ω) (linMeas y.C y.R (y.value ω) (some y.stamp)) uu none none = .ok (x', some d) := d1
        rw [hD] at d1
        by_cases hgt : (y.value ω - y.C *ᵥ (x ω).state.value) ⬝ᵥ (y.C * P * y.Cᵀ + y.R)⁻¹ *ᵥ (y.value ω - y.C *ᵥ (x ω).state.value)
            > q (99 / 100) y.m
        · rw [if_pos hgt] at d1
          cases d1
          cases d2
        · rw [if_neg hgt] at d1
          cases d1
          exact ⟨d3, hgt, d4⟩
      · rintro ⟨d3, hgt, d4⟩
        exact ⟨⟨_, ⟨y.m, y.value ω - y.C *ᵥ (x ω).state.value, y.C * P * y.Cᵀ + y.R, false⟩, hD.trans (if_neg hgt), rfl, d3⟩, d4⟩
    by_cases hlt : y.stamp - τ > 1 / 10 ^ 11
    · rw [if_pos hlt] at hf hw ha hnG
      have h0 : (0 : ℝ) < 1 / 10 ^ 11 := by positivity
      have hq' := hQ ⟨u.value, some u.stamp⟩ (y.stamp - τ) (by linarith)
      have hP1 := psd_add (psd_conj hP (A ⟨u.value, some u.stamp⟩ (y.stamp - τ))) hq'
      have hx' : ∀ i, (fun ω => (linPred A b Q ⟨u.value, some u.stamp⟩ τ y.stamp (x ω)).state.value i) ∈ D := by
        intro i
        have e : (fun ω => (linPred A b Q ⟨u.value, some u.stamp⟩ τ y.stamp (x ω)).state.value i)
            = (fun ω => (A ⟨u.value, some u.stamp⟩ (y.stamp - τ) *ᵥ (x ω).state.value) i)
              + (b ⟨u.value, some u.stamp⟩ (y.stamp - τ) i) • (fun _ => (1 : ℝ)) := by
          funext ω
          simp [linPred]
        rw [e]
        exact D.add_mem (mem_mulVec hx _ i) (D.smul_mem _ h1)
      have := core (fun ω => linPred A b Q ⟨u.value, some u.stamp⟩ τ y.stamp (x ω)) _ y.stamp hP1
        (fun ω => by simp only [linPred, hc]) (fun ω => rfl) (le_refl _) (by rw [sub_self]; exact not_lt.mpr (by positivity)) hf
        (white_predict A b Q X hc hw) hx' (ahead_predict A b Q X ha)
        (mem_proc A b Q X hG1 hXG (hnG (procNoise A b Q X u τ y.stamp) (by simp))) (hnG (measNoise X y.stamp y) (by simp))
        (fun η hη => hnG η (by simp [hη])) none
      refine Eq.trans (congrArg μ ?_) this
      ext ω
      have hL := rej_laterD A b Q chi u y.C (y.value ω) y.stamp hR (hs ω) (by rw [hc]; exact hP) hq' hlt
      show (∃ x' d, (rejFilter A b Q chi).correctD (x ω) (linMeas y.C y.R (y.value ω) (some y.stamp)) _ none none = _ ∧ _) ∧ _ ↔ _
      rw [hL]
      rfl
    · rw [if_neg hlt] at hf hw ha hnG
      exact core x P τ hP hc hs ht hlt hf hw hx ha hXG (hnG (measNoise X τ y) (by simp)) (fun η hη => hnG η (by simp [hη])) _

/-- C119: with `reject_outliers=True`, on data that follow the model exactly, all `K` measurements of a run are accepted with
probability `0.99 ^ K` and no more; when they are, the run is the run without the test. -/
theorem C119_run (hQ : ∀ u dt, 0 ≤ dt → (Q u dt).PosSemidef) (x0 : Vec n) (t0 : ℝ) (P0 : Mat n n)
    (hP : P0.PosSemidef) (ins : List (StInp U)) (meas : List (RMeas Ω n))
    (hi : ins = [] ∨ ∃ u ∈ ins, t0 ≤ u.stamp) (hm : meas = [] ∨ ∃ y ∈ meas, t0 ≤ y.stamp) (hR : ∀ y ∈ meas, y.R.PosDef)
    (hdim : ∀ y ∈ meas, 0 < y.m)
    (hw : White μ CovRel.exact (⟨n, fun ω => X t0 ω - x0, P0⟩ :: noises A b Q X t0 (runEvents t0 ins meas)))
    (hg : JointlyGaussian μ (⟨n, fun ω => X t0 ω - x0, P0⟩ :: noises A b Q X t0 (runEvents t0 ins meas)))
    {ppf : ℝ → ℝ → ℝ} (hq : IsPpf ppf) (hchi : ∀ m, chi m = ppf (99 / 100) m) :
    μ {ω | NoneRejected (rejFilter A b Q chi) ω (runEvents t0 ins meas) ⟨⟨x0, some t0⟩, P0⟩}
      = ENNReal.ofReal ((99 / 100) ^ (fused (runEvents t0 ins meas)).length) ∧
    ∀ ω, NoneRejected (rejFilter A b Q chi) ω (runEvents t0 ins meas) ⟨⟨x0, some t0⟩, P0⟩ →
      runFilter (ekfApi (rejFilter A b Q chi)) ⟨⟨x0, some t0⟩, P0⟩ ins (meas.map (·.at ω))
        = runFilter (ekfApi (linFilter A b Q chi)) ⟨⟨x0, some t0⟩, P0⟩ ins (meas.map (·.at ω)) := by
  have hG := noiseSpace_gauss hg
  have hone : ∀ {m : ℕ} {V : Ω → Vec m} (hV : SqInt μ V), rvMean μ V = 0 →
      Submodule.span ℝ {fun _ => (1 : ℝ)} ≤ orthSub μ V hV := by
    intro m V hV h0
    rw [Submodule.span_le]
    rintro g rfl
    refine ⟨memLp_const _, fun i => ?_⟩
    simp only [mul_one]
    exact congrFun h0 i
  have hcon : ∀ i, (fun _ : Ω => x0 i) ∈ Submodule.span ℝ {fun _ : Ω => (1 : ℝ)} := fun i => by
    have e : (fun _ : Ω => x0 i) = x0 i • fun _ : Ω => (1 : ℝ) := by funext ω; simp
    rw [e]
    exact Submodule.smul_mem _ _ (Submodule.subset_span rfl)
  have hDG : Submodule.span ℝ {fun _ : Ω => (1 : ℝ)}
      ≤ noiseSpace (⟨n, fun ω => X t0 ω - x0, P0⟩ :: noises A b Q X t0 (runEvents t0 ins meas)) := le_sup_right
  constructor
  · have key := gate_events A b Q chi X _ (noiseSpace_one
        (⟨n, fun ω => X t0 ω - x0, P0⟩ :: noises A b Q X t0 (runEvents t0 ins meas))) hG hq hchi hQ (runEvents t0 ins meas)
      (fun ω => ⟨⟨x0, some t0⟩, P0⟩) P0 t0
      (Submodule.span ℝ {fun _ => (1 : ℝ)}) hP (fun _ => rfl) (fun _ => rfl) (runEvents_forward hR)
      (fun y hy => hdim y (runEvents_fused hy)) hw
      (Submodule.subset_span rfl) hcon
      (fun η hη => ⟨hw.sq η hη, hone _ (hw.mean η hη)⟩)
      (fun i => by
        have e : (fun ω => X t0 ω i) = (fun ω => (X t0 ω - x0) i) + fun _ => x0 i := by
          funext ω; simp
        rw [e]
        exact Submodule.add_mem _ (noiseSpace_mem (η := ⟨n, fun ω => X t0 ω - x0, P0⟩) (by simp) i) (hDG (hcon i)))
      (fun η hη j => noiseSpace_mem (by simp [hη]) j) hDG
      (Fin 0) (fun _ => 0) (fun j => j.elim0) Set.univ MeasurableSet.univ
    rw [ENNReal.ofReal_pow (by norm_num)]
    simpa using key
  · intro ω hω
    rw [run_rand, run_rand, C21_run_filter_schedule (randApi (rejFilter A b Q chi) ω) _ t0 rfl ins meas hi hm,
      C21_run_filter_schedule (randApi (linFilter A b Q chi) ω) _ t0 rfl ins meas hi hm]
    exact exec_unflagged _ chi ω _ _ hω

end run

/-! ### The random log of `GaussNoise.lean` -/

/-- The hypotheses of `C119_run` hold for it: its measurement is accepted with probability 0.99. -/
example : ∃ chi, normal (1 : Mat 4 4) {ω | NoneRejected (rejFilter (U := Unit) (fun _ _ => 1) (fun _ _ => 0) (fun _ _ => 1) chi) ω
    (runEvents 0 [⟨(), 0⟩, ⟨(), 1⟩] [walkMeas]) ⟨⟨0, some 0⟩, 1⟩} = ENNReal.ofReal ((99 / 100) ^ 1) := by
  obtain ⟨ppf, hq⟩ := exists_ppf
  refine ⟨fun m => ppf (99 / 100) m, ?_⟩
  have h := (C119_run (U := Unit) (μ := normal (1 : Mat 4 4)) (fun _ _ => 1) (fun _ _ => 0) (fun _ _ => 1) (fun m => ppf (99 / 100) m)
    walkTruth (fun _ _ _ => PosSemidef.one) (fun _ => 0) 0 1 PosSemidef.one [⟨(), 0⟩, ⟨(), 1⟩] [walkMeas]
    (.inr ⟨⟨(), 0⟩, by simp, le_refl _⟩) (.inr ⟨walkMeas, by simp, by norm_num [walkMeas]⟩)
    (fun y hy => by rw [List.mem_singleton.mp hy]; exact PosDef.one)
    (fun y hy => by rw [List.mem_singleton.mp hy]; exact Nat.one_pos) walk_white walk_gauss hq fun _ => rfl).1
  have e : (fused (runEvents (U := Unit) 0 [⟨(), 0⟩, ⟨(), 1⟩] [walkMeas])).length = 1 := by
    rw [walk_events]
    rfl
  rw [e] at h
  exact h

/-- A measurement of the walk at time `0`. -/
noncomputable def walkMeas0 : RMeas (Vec 4) 1 := ⟨1, 1, 1, 0, fun ω _ => ω 0 + ω 3⟩

/-- The hypotheses of `C119_correct` hold for it and the initial estimate. -/
example : ∃ chi, ∃ flag : Vec 4 → Bool, (∃ (z : Vec 4 → Vec 1) (S : Mat 1 1) (x' : Vec 4 → SWC (Vec 1) 1), ∀ ω, (rejFilter (U := Unit) (fun _ _ => 1) (fun _ _ => 0) (fun _ _ => 1) chi).correctD
      ⟨⟨fun _ => 0, some 0⟩, 1⟩ (walkMeas0.at ω).meas none none none = .ok (x' ω, some ⟨1, z ω, S, flag ω⟩)) ∧
    normal (1 : Mat 4 4) {ω | flag ω = true} = ENNReal.ofReal (1 / 100) := by
  obtain ⟨ppf, hq⟩ := exists_ppf
  have e0 : (fun ω => walkTruth 0 ω - fun _ => (0 : ℝ)) = fun ω (_ : Fin 1) => ω 0 := by
    funext ω i
    have h1 : ¬ (1 / 2 : ℝ) ≤ 0 := by norm_num
    have h2 : ¬ (1 : ℝ) ≤ 0 := by norm_num
    show walkTruth 0 ω i - 0 = ω 0
    simp only [walkTruth, if_neg h1, if_neg h2, sub_zero, add_zero]
  have e1 : measNoise walkTruth 0 walkMeas0 = ⟨1, fun ω _ => ω 3, 1⟩ := by
    unfold measNoise
    show (⟨1, fun ω => ((fun _ => ω 0 + ω 3) : Vec 1) - (1 : Mat 1 1) *ᵥ walkTruth 0 ω, 1⟩ : Noise _) = _
    congr 1
    funext ω i
    have h1 : ¬ (1 / 2 : ℝ) ≤ 0 := by norm_num
    have h2 : ¬ (1 : ℝ) ≤ 0 := by norm_num
    show (ω 0 + ω 3) - ((1 : Mat 1 1) *ᵥ walkTruth 0 ω) i = _
    rw [one_mulVec]
    simp only [walkTruth, if_neg h1, if_neg h2]
    ring
  have hw : White (normal (1 : Mat 4 4)) CovRel.exact
      [⟨1, fun ω => walkTruth 0 ω - fun _ => (0 : ℝ), 1⟩, measNoise walkTruth 0 walkMeas0] := by
    rw [e0, e1]
    have h := walk_white
    rw [walkNoises_eq] at h
    refine ⟨fun η hη => h.sq η ?_, fun η hη => h.mean η ?_, fun η hη => h.cov η ?_, ?_⟩
    · simp only [List.mem_cons, List.not_mem_nil, or_false] at hη ⊢
      rcases hη with rfl | rfl <;> simp
    · simp only [List.mem_cons, List.not_mem_nil, or_false] at hη ⊢
      rcases hη with rfl | rfl <;> simp
    · simp only [List.mem_cons, List.not_mem_nil, or_false] at hη ⊢
      rcases hη with rfl | rfl <;> simp
    · simp only [List.pairwise_cons, List.mem_cons, List.not_mem_nil, or_false, forall_eq, List.Pairwise.nil,
        and_true, IsEmpty.forall_iff, implies_true]
      ext i j
      exact (walk_cov _ _).trans (one_apply_ne (by decide))
  have hg : JointlyGaussian (normal (1 : Mat 4 4))
      [⟨1, fun ω => walkTruth 0 ω - fun _ => (0 : ℝ), 1⟩, measNoise walkTruth 0 walkMeas0] := by
    rw [e0, e1]
    intro g hgm
    refine walk_gauss g ?_
    rw [walkNoises_eq]
    refine Submodule.span_mono ?_ hgm
    rintro f ⟨η, hη, j, rfl⟩
    refine ⟨η, ?_, j, rfl⟩
    simp only [List.mem_cons, List.not_mem_nil, or_false] at hη ⊢
    rcases hη with rfl | rfl <;> simp
  have hh : Honest (normal (1 : Mat 4 4)) CovRel.exact walkTruth (fun _ => ⟨⟨fun _ => 0, some 0⟩, 1⟩) 0 1 :=
    ⟨fun _ => rfl, fun _ => rfl, PosSemidef.one, hw.sq ⟨1, fun ω => walkTruth 0 ω - fun _ => (0 : ℝ), 1⟩ (by simp),
      hw.mean ⟨1, fun ω => walkTruth 0 ω - fun _ => (0 : ℝ), 1⟩ (by simp), hw.cov ⟨1, fun ω => walkTruth 0 ω - fun _ => (0 : ℝ), 1⟩ (by simp)⟩
  obtain ⟨z, S, flag, x', h1, -, -, h4⟩ := C119_correct (U := Unit) (fun _ _ => 1) (fun _ _ => 0) (fun _ _ => 1) (fun m => ppf (99 / 100) m) hh
    walkMeas0 rfl PosDef.one Nat.one_pos hw hg hq (fun _ => rfl) none
  exact ⟨_, flag, ⟨z, S, x', h1⟩, h4⟩

end Verif
