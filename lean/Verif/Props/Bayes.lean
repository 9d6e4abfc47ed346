import Verif.Props.FalseAlarm
import Verif.Lemmas.GaussDensity
import Verif.Props.Imm
import Verif.Model.RunFilters
import Mathlib.Probability.ConditionalProbability

/-!
C122, C123: a linear system with white Gaussian noise whose mode (the component of the initial mixture; the model in force) is unknown.
The mixture that `run_gsf_filter` reports, and the one `run_imm_filter` reports when the mode never changes, is the distribution of mode
and state given the data.
-/

set_option linter.unusedSectionVars false
set_option linter.unusedVariables false

namespace Verif

open Matrix MeasureTheory ProbabilityTheory

variable {Ω : Type} {n M : ℕ} {U : Type} [MeasurableSpace Ω]

/-! ### Specification -/

/-- In the outcome `ω`, performing the events with the filter `f` from the mixture `x` on, no correction falls under the threshold for
resetting the weights: at each one, for some component, weight times likelihood of the innovation that the Kalman filter `kfs i` reports
is above `1e-8`. -/
def NoReset (f : FilterApi (Mixture (Vec n) n M) (StInp U) (RMeas Ω n)) (kfs : Fin M → EkfEnv (Vec n) U n) (ω : Ω) :
    List (Ev (StInp U) (RMeas Ω n)) → Mixture (Vec n) n M → Prop
  | [], _ => True
  | .record :: es, x => NoReset f kfs ω es x
  | .predict u t :: es, x => ∃ x', predictTo f x u t = .ok x' ∧ NoReset f kfs ω es x'
  | .correct y u :: es, x =>
    (∃ (i : Fin M) (x' : SWC (Vec n) n) (d : CorrectDetails),
      (kfs i).correctD (x.states i) (y.at ω).meas (some ⟨u.value, some u.stamp⟩) none none = .ok (x', some d) ∧
      1 / 10 ^ 8 < x.probs i * gaussPdf d.z d.S) ∧
    ∃ x', f.correct x y u = .ok x' ∧ NoReset f kfs ω es x'

/-- On the outcomes in `good`, the mixture `r` at time `t` is the distribution of the mode `K` and the state given the measurements `ys`:
for every set `S` of data, mode `i` and set `B` of states, the probability that the data are in `S`, the mode is `i` and the state is in
`B` is the mean, over the outcomes with data in `S`, of the weight of component `i` times the probability that its normal distribution
gives to `B`. -/
structure MixturePosterior (μ : Measure Ω) (K : Ω → Fin M) (X : ℝ → Ω → Vec n) (ys : List (RMeas Ω n)) (r : Ω → Mixture (Vec n) n M)
    (t : ℝ) (good : Set Ω) : Prop where
  stamp : ∀ ω i, ((r ω).states i).state.stamp = some t
  post : ∀ (i : Fin M) (S : Set ((Σ k : Fin ys.length, Fin (ys.get k).m) → ℝ)), MeasurableSet S → ∀ B : Set (Vec n), MeasurableSet B →
    μ {ω | ω ∈ good ∧ dataVec ys ω ∈ S ∧ K ω = i ∧ X t ω ∈ B}
      = ∫⁻ ω in {ω | ω ∈ good ∧ dataVec ys ω ∈ S},
          ENNReal.ofReal ((r ω).probs i) * normal ((r ω).states i).cov {e | ((r ω).states i).state.value + e ∈ B} ∂μ

/-! ### One mode -/

/-- What is known under one mode: the estimate of its filter is a function of the data `W` so far, its error is normal and orthogonal to
them, and `p` is the density of the data. -/
structure Mode (ν : Measure Ω) (X : ℝ → Ω → Vec n) (D : Submodule ℝ (Ω → ℝ)) {κ : Type} [Fintype κ] (W : κ → Ω → ℝ)
    (x : Ω → SWC (Vec n) n) (P : Mat n n) (τ : ℝ) (l : List (Noise Ω)) (p : (κ → ℝ) → ℝ) : Prop where
  psd : P.PosSemidef
  cov : ∀ ω, (x ω).cov = P
  stamp : ∀ ω, (x ω).state.stamp = some τ
  white : White ν CovRel.exact (⟨n, fun ω => X τ ω - (x ω).state.value, P⟩ :: l)
  ahead : Ahead ν D (⟨n, fun ω => X τ ω - (x ω).state.value, P⟩ :: l)
  space : ∃ G : Submodule ℝ (Ω → ℝ), (fun _ => (1 : ℝ)) ∈ G ∧ (∀ g ∈ G, HasGaussianLaw g ν) ∧ (∀ i, (fun ω => X τ ω i) ∈ G) ∧
    (∀ η ∈ l, ∀ j, (fun ω => η.val ω j) ∈ G) ∧ D ≤ G
  one : (fun _ => (1 : ℝ)) ∈ D
  mem : ∀ i, (fun ω => (x ω).state.value i) ∈ D
  wmem : ∀ k, W k ∈ D
  fn : ∃ φ : (κ → ℝ) → Vec n, Measurable φ ∧ ∀ ω, (x ω).state.value = φ (fun k => W k ω)
  pm : Measurable p
  pos : ∀ d, 0 < p d
  dens : ν.map (fun ω k => W k ω) = volume.withDensity fun d => ENNReal.ofReal (p d)

section mode
variable {ν : Measure Ω} [IsProbabilityMeasure ν] {X : ℝ → Ω → Vec n} {D : Submodule ℝ (Ω → ℝ)} {κ : Type} [Fintype κ] {W : κ → Ω → ℝ}
  {x : Ω → SWC (Vec n) n} {P : Mat n n} {τ : ℝ} {l : List (Noise Ω)} {p : (κ → ℝ) → ℝ}

theorem Mode.meas (h : Mode ν X D W x P τ l p) : AEMeasurable (fun ω k => W k ω) ν := by
  obtain ⟨G, -, hG, -, -, hD⟩ := h.space
  exact aemeasurable_pi_lambda _ fun k => (hG _ (hD (h.wmem k))).aemeasurable

theorem Mode.predict (A : Inp U → ℝ → Mat n n) (b : Inp U → ℝ → Vec n) (Q : Inp U → ℝ → Mat n n) {u : StInp U} {t : ℝ}
    (hq : (Q ⟨u.value, some u.stamp⟩ (t - τ)).PosSemidef) (h : Mode ν X D W x P τ (procNoise A b Q X u τ t :: l) p) :
    Mode ν X D W (fun ω => linPred A b Q ⟨u.value, some u.stamp⟩ τ t (x ω))
      (A ⟨u.value, some u.stamp⟩ (t - τ) * P * (A ⟨u.value, some u.stamp⟩ (t - τ))ᵀ + Q ⟨u.value, some u.stamp⟩ (t - τ)) t l p := by
  obtain ⟨G, g1, hG, gX, gl, hD⟩ := h.space
  obtain ⟨φ, f1, f2⟩ := h.fn
  refine ⟨psd_add (psd_conj h.psd _) hq, fun ω => by simp only [linPred, h.cov], fun ω => rfl, white_predict A b Q X h.cov h.white,
    ahead_predict A b Q X h.ahead, ⟨G, g1, hG, mem_proc A b Q X g1 gX (gl (procNoise A b Q X u τ t) (by simp)),
      fun η hη => gl η (by simp [hη]), hD⟩, h.one, ?_, h.wmem, ?_, h.pm, h.pos, h.dens⟩
  · intro i
    have e : (fun ω => (linPred A b Q ⟨u.value, some u.stamp⟩ τ t (x ω)).state.value i)
        = (fun ω => (A ⟨u.value, some u.stamp⟩ (t - τ) *ᵥ (x ω).state.value) i)
          + (b ⟨u.value, some u.stamp⟩ (t - τ) i) • (fun _ => (1 : ℝ)) := by
      funext ω
      simp [linPred]
    rw [e]
    exact D.add_mem (mem_mulVec h.mem _ i) (D.smul_mem _ h.one)
  · refine ⟨fun d => A ⟨u.value, some u.stamp⟩ (t - τ) *ᵥ φ d + b ⟨u.value, some u.stamp⟩ (t - τ), ?_, fun ω => ?_⟩
    · refine Measurable.add ?_ measurable_const
      have : Measurable fun v : Vec n => A ⟨u.value, some u.stamp⟩ (t - τ) *ᵥ v := by
        unfold mulVec dotProduct
        fun_prop
      exact this.comp f1
    · beta_reduce
      rw [← f2]
      rfl

theorem Mode.correct {y : RMeas Ω n} (hR : y.R.PosDef) (h : Mode ν X D W x P τ (measNoise X τ y :: l) p) :
    ∃ p' : (κ ⊕ Fin y.m → ℝ) → ℝ,
      Mode ν X (addData D y) (Sum.elim W fun j ω => y.value ω j) (fun ω => linPost y.C y.R (y.value ω) τ (x ω)) (kCov P y.C y.R) τ l p' ∧
      ∀ ω, p' (fun k => Sum.elim W (fun j ω => y.value ω j) k ω)
        = p (fun k => W k ω) * gaussPdf (y.value ω - y.C *ᵥ (x ω).state.value) (y.C * (x ω).cov * y.Cᵀ + y.R) := by
  obtain ⟨G, g1, hG, gX, gl, hD⟩ := h.space
  obtain ⟨φ, f1, f2⟩ := h.fn
  have hyG := mem_meas X gX (gl (measNoise X τ y) (by simp))
  obtain ⟨k1, k2⟩ := ahead_correct X h.psd h.cov hR h.mem h.white h.ahead
  obtain ⟨hz, z0, zc, zo, zD⟩ := innov_facts X h.mem h.white h.ahead
  have hADG : addData D y ≤ G := addData_le.mpr ⟨hD, hyG⟩
  have hDy := (addData_le (D := D) (S := addData D y) (y := y)).mp (le_refl _)
  have hS := innov_pd h.psd y.C hR
  have hmul : ∀ {a c : ℕ} (F : Mat a c), Measurable fun v : Vec c => F *ᵥ v := by
    intro a c F
    unfold mulVec dotProduct
    fun_prop
  have hc : Measurable fun d => y.C *ᵥ φ d := (hmul y.C).comp f1
  have hin : Measurable fun d : κ ⊕ Fin y.m → ℝ => (fun k => d (.inl k) : κ → ℝ) := by fun_prop
  have hir : Measurable fun d : κ ⊕ Fin y.m → ℝ => (fun j => d (.inr j) : Vec y.m) := by fun_prop
  have hlaw := gauss_law hG (fun j => hADG (zD j)) z0 zc
  have hi : IndepFun (fun ω => y.value ω - y.C *ᵥ (x ω).state.value) (fun ω k => W k ω) ν :=
    gauss_indep hG (Z := fun j ω => (y.value ω - y.C *ᵥ (x ω).state.value) j) (fun j => hADG (zD j)) (fun k => hD (h.wmem k))
      (fun j => congrFun z0 j) (fun i k => (zo (h.wmem k)).2 i)
  simp only [f2] at hlaw hi
  have hzm : AEMeasurable (fun ω => y.value ω - y.C *ᵥ φ (fun k => W k ω)) ν := by
    by_contra h'
    rw [Measure.map_of_not_aemeasurable h'] at hlaw
    exact IsProbabilityMeasure.ne_zero (normal (y.C * P * y.Cᵀ + y.R)) hlaw.symm
  have hdens := density_append h.meas h.pm h.pos h.dens hc hS hlaw hzm hi
  refine ⟨_, ⟨kCov_psd h.psd y.C hR, fun ω => by simp only [linPost, h.cov], fun ω => rfl, white_correct X h.psd h.cov hR h.white, k1,
    ⟨G, g1, hG, gX, fun η hη => gl η (by simp [hη]), hADG⟩, hDy.1 h.one, k2, ?_, ?_, ?_, ?_, hdens⟩, fun ω => ?_⟩
  · intro k
    cases k with
    | inl k => exact hDy.1 (h.wmem k)
    | inr j => exact hDy.2 j
  · refine ⟨fun d => φ (fun k => d (.inl k)) + kGain P y.C y.R *ᵥ ((fun j => d (.inr j)) - y.C *ᵥ φ (fun k => d (.inl k))), ?_, fun ω => ?_⟩
    · exact (f1.comp hin).add ((hmul _).comp (hir.sub (hc.comp hin)))
    · show (x ω).state.value + kGain (x ω).cov y.C y.R *ᵥ (y.value ω - y.C *ᵥ (x ω).state.value) = _
      rw [h.cov, f2]
      rfl
  · exact (h.pm.comp hin).mul ((gaussPdf_measurable _).comp (hir.sub (hc.comp hin)))
  · exact fun d => mul_pos (h.pos _) (pdf_pos hS _)
  · rw [f2, h.cov]
    rfl

/-- The distribution of the state given the data, under one mode. -/
theorem Mode.posterior (h : Mode ν X D W x P τ l p) {T : Set (κ → ℝ)} (hT : MeasurableSet T) {B : Set (Vec n)} (hB : MeasurableSet B) :
    ∃ g : (κ → ℝ) → ENNReal, Measurable g ∧ (∀ ω, g (fun k => W k ω) = normal P {e | (x ω).state.value + e ∈ B}) ∧
      ν {ω | (fun k => W k ω) ∈ T ∧ X τ ω ∈ B} = ∫⁻ ω in (fun ω k => W k ω) ⁻¹' T, g (fun k => W k ω) ∂ν := by
  obtain ⟨G, g1, hG, gX, gl, hD⟩ := h.space
  obtain ⟨ψ, p1, p2⟩ := h.fn
  have he : ∀ i, (fun ω => (X τ ω - (x ω).state.value) i) ∈ G := fun i => G.sub_mem (gX i) (hD (h.mem i))
  obtain ⟨s1, h1⟩ := h.ahead ⟨n, fun ω => X τ ω - (x ω).state.value, P⟩ (by simp)
  have m1 : rvMean ν (fun ω => X τ ω - (x ω).state.value) = 0 := h.white.mean ⟨n, fun ω => X τ ω - (x ω).state.value, P⟩ (by simp)
  have c1 : rvCross ν (fun ω => X τ ω - (x ω).state.value) (fun ω => X τ ω - (x ω).state.value) = P :=
    h.white.cov ⟨n, fun ω => X τ ω - (x ω).state.value, P⟩ (by simp)
  have hlaw := gauss_law hG he m1 c1
  have hi : IndepFun (fun ω => X τ ω - (x ω).state.value) (fun ω k => W k ω) ν :=
    gauss_indep hG (Z := fun i ω => (X τ ω - (x ω).state.value) i) he (fun k => hD (h.wmem k)) (fun i => congrFun m1 i)
      (fun i k => (h1 (h.wmem k)).2 i)
  have hem : AEMeasurable (fun ω => X τ ω - (x ω).state.value) ν := by
    by_contra h'
    rw [Measure.map_of_not_aemeasurable h'] at hlaw
    exact IsProbabilityMeasure.ne_zero (normal P) hlaw.symm
  have hd := h.meas
  have hj := (indepFun_iff_map_prod_eq_prod_map_map hem hd).mp hi
  rw [hlaw] at hj
  have hTm : MeasurableSet {q : Vec n × (κ → ℝ) | q.2 ∈ T ∧ ψ q.2 + q.1 ∈ B} := by
    have h1 : Measurable fun q : Vec n × (κ → ℝ) => ψ q.2 + q.1 := (p1.comp measurable_snd).add measurable_fst
    exact (measurable_snd hT).inter (h1 hB)
  have e1 : {ω | (fun k => W k ω) ∈ T ∧ X τ ω ∈ B} = (fun ω => ((X τ ω - (x ω).state.value), fun k => W k ω)) ⁻¹'
      {q : Vec n × (κ → ℝ) | q.2 ∈ T ∧ ψ q.2 + q.1 ∈ B} := by
    ext ω
    show _ ↔ (fun k => W k ω) ∈ T ∧ ψ (fun k => W k ω) + (X τ ω - (x ω).state.value) ∈ B
    rw [← p2, add_sub_cancel]
    rfl
  have hmeas : Measurable fun d => normal P {e | ψ d + e ∈ B} := by
    have h1 : MeasurableSet {q : (κ → ℝ) × Vec n | ψ q.1 + q.2 ∈ B} := ((p1.comp measurable_fst).add measurable_snd) hB
    exact measurable_measure_prodMk_left h1
  refine ⟨fun d => normal P {e | ψ d + e ∈ B}, hmeas, fun ω => by beta_reduce; rw [← p2], ?_⟩
  rw [e1, ← Measure.map_apply_of_aemeasurable (hem.prodMk hd) hTm, hj, Measure.prod_apply_symm hTm]
  have e2 : ∀ d, (normal P) ((fun e => (e, d)) ⁻¹' {q : Vec n × (κ → ℝ) | q.2 ∈ T ∧ ψ q.2 + q.1 ∈ B})
      = T.indicator (fun d => normal P {e | ψ d + e ∈ B}) d := by
    intro d
    by_cases hdS : d ∈ T
    · rw [Set.indicator_of_mem hdS]
      congr 1
      ext e
      exact ⟨fun h => h.2, fun h => ⟨hdS, h⟩⟩
    · rw [Set.indicator_of_notMem hdS]
      convert measure_empty (μ := normal P)
      ext e
      exact ⟨fun h => hdS h.1, fun h => h.elim⟩
  simp only [e2]
  rw [lintegral_indicator hT, Measure.restrict_map_of_aemeasurable hd hT, lintegral_map' hmeas.aemeasurable hd.restrict]

end mode

/-! ### All modes -/

/-- The estimate where a measurement of stamp `s` is fused. -/
noncomputable def fuseAt (A : Inp U → ℝ → Mat n n) (b : Inp U → ℝ → Vec n) (Q : Inp U → ℝ → Mat n n) (u : StInp U) (τ s : ℝ)
    (x : SWC (Vec n) n) : SWC (Vec n) n :=
  if s - τ > 1 / 10 ^ 11 then linPred A b Q ⟨u.value, some u.stamp⟩ τ s x else x

/-- The mixture after a correction without reset. -/
noncomputable def bankPost (y : RMeas Ω n) (v : Vec y.m) (τ : ℝ) (x : Mixture (Vec n) n M) : Mixture (Vec n) n M :=
  ⟨fun i => linPost y.C y.R v τ (x.states i),
    renormalize fun i => x.probs i * gaussPdf (v - y.C *ᵥ (x.states i).state.value) (y.C * (x.states i).cov * y.Cᵀ + y.R)⟩

/-- A filter that runs one linear Kalman filter per component and weighs them by their likelihoods. -/
structure BankSpec (A : Fin M → Inp U → ℝ → Mat n n) (b : Fin M → Inp U → ℝ → Vec n) (Q : Fin M → Inp U → ℝ → Mat n n)
    (ok : RMeas Ω n → Prop) (f : Ω → FilterApi (Mixture (Vec n) n M) (StInp U) (RMeas Ω n)) : Prop where
  predict : ∀ ω x u τ t, (∀ i, (x.states i).state.stamp = some τ) → τ ≤ t → (∀ i, (x.states i).cov.PosSemidef) →
    predictTo (f ω) x u t = .ok ⟨fun i => linPred (A i) (b i) (Q i) ⟨u.value, some u.stamp⟩ τ t (x.states i), x.probs⟩
  correct : ∀ ω x y u τ, ok y → y.R.PosDef → (∀ i, (x.states i).state.stamp = some τ) → τ ≤ y.stamp →
    (∀ i, (x.states i).cov.PosSemidef) → (∀ i, 0 < x.probs i) →
    (f ω).correct x y u = .ok (bankPost y (y.value ω) (if y.stamp - τ > 1 / 10 ^ 11 then y.stamp else τ)
      ⟨fun i => fuseAt (A i) (b i) (Q i) u τ y.stamp (x.states i), x.probs⟩)

section lin
variable (A : Inp U → ℝ → Mat n n) (b : Inp U → ℝ → Vec n) (Q : Inp U → ℝ → Mat n n) (chi : ℕ → ℝ)

theorem lin_correctD (hQ : ∀ u dt, 0 ≤ dt → (Q u dt).PosSemidef) {x : SWC (Vec n) n} {τ : ℝ} (u : StInp U) {m : ℕ} (C : Mat m n)
    {R : Mat m m} (v : Vec m) (s : ℝ) (hR : R.PosDef) (hx : x.state.stamp = some τ) (hP : x.cov.PosSemidef) (hs : τ ≤ s) :
    (linFilter A b Q chi).correctD x (linMeas C R v (some s)) (some ⟨u.value, some u.stamp⟩) none none
      = .ok (linPost C R v (if s - τ > 1 / 10 ^ 11 then s else τ) (fuseAt A b Q u τ s x),
        some ⟨m, v - C *ᵥ (fuseAt A b Q u τ s x).state.value, C * (fuseAt A b Q u τ s x).cov * Cᵀ + R, false⟩) := by
  unfold fuseAt
  by_cases hlt : s - τ > 1 / 10 ^ 11
  · simp only [if_pos hlt]
    have h0 : (0 : ℝ) < 1 / 10 ^ 11 := by positivity
    have hq := hQ ⟨u.value, some u.stamp⟩ (s - τ) (by linarith)
    have hp := psd_step_predict A b Q chi u hx (by linarith : τ ≤ s) hP hq
    unfold predictTo at hp
    rw [show (ekfApi (linFilter A b Q chi)).xstamp x = some τ from hx] at hp
    have hp' : (linFilter A b Q chi).predict x (some ⟨u.value, some u.stamp⟩) (some (s - τ)) none
        = .ok (linPred A b Q ⟨u.value, some u.stamp⟩ τ s x) := hp
    have ha : (linFilter A b Q chi).advance x (linMeas C R v (some s)) (some ⟨u.value, some u.stamp⟩)
        = .ok (linPred A b Q ⟨u.value, some u.stamp⟩ τ s x) := by
      unfold EkfEnv.advance
      simp only [hx, linMeas]
      rw [if_neg (not_lt.mpr (le_trans (by norm_num : (-(10 ^ 10) : ℝ) ≤ 0) (by linarith))), if_pos hlt]
      exact hp'
    have ha' : (linFilter A b Q chi).advance (linPred A b Q ⟨u.value, some u.stamp⟩ τ s x) (linMeas C R v (some s)) none
        = .ok (linPred A b Q ⟨u.value, some u.stamp⟩ τ s x) := by
      unfold EkfEnv.advance
      simp only [linMeas, linPred]
      rw [if_neg (by rw [sub_self]; norm_num)]
    have e : (linFilter A b Q chi).correctD x (linMeas C R v (some s)) (some ⟨u.value, some u.stamp⟩) none none
        = (linFilter A b Q chi).correctD (linPred A b Q ⟨u.value, some u.stamp⟩ τ s x) (linMeas C R v (some s)) none none none := by
      unfold EkfEnv.correctD
      rw [ha, ha']
    rw [e]
    exact psd_step_hereD A b Q chi none C v s hR rfl (psd_add (psd_conj hP _) hq) (le_refl _)
      (by rw [sub_self]; exact not_lt.mpr h0.le)
  · simp only [if_neg hlt]
    exact psd_step_hereD A b Q chi _ C v s hR hx hP hs hlt

end lin

/-- The modes together. -/
structure Bank (ν : Fin M → Measure Ω) (w : Fin M → ℝ) (X : ℝ → Ω → Vec n) (D : Submodule ℝ (Ω → ℝ)) {κ : Type} [Fintype κ]
    (W : κ → Ω → ℝ) (x : Ω → Mixture (Vec n) n M) (P : Fin M → Mat n n) (τ : ℝ) (l : Fin M → List (Noise Ω)) (p : Fin M → (κ → ℝ) → ℝ)
    (T : Set (κ → ℝ)) : Prop where
  mode : ∀ i, Mode (ν i) X D W (fun ω => (x ω).states i) (P i) τ (l i) (p i)
  pos : ∀ ω i, 0 < (x ω).probs i
  meas : MeasurableSet T
  probs : ∀ ω, (fun k => W k ω) ∈ T → ∀ i, (x ω).probs i = w i * p i (fun k => W k ω) / ∑ j, w j * p j (fun k => W k ω)

theorem renormalize_pos {mu : Fin M → ℝ} (h : ∀ i, 0 < mu i) (i : Fin M) : 0 < renormalize mu i := by
  by_cases hc : ∀ i, |mu i| ≤ 1 / 10 ^ 8
  · rw [renormalize_reset hc]
    have := i.pos
    positivity
  · unfold renormalize
    rw [if_neg hc]
    exact div_pos (h i) (Finset.sum_pos (fun j _ => h j) ⟨i, Finset.mem_univ i⟩)

section bank
variable {ν : Fin M → Measure Ω} [∀ i, IsProbabilityMeasure (ν i)] {w : Fin M → ℝ} {X : ℝ → Ω → Vec n} {D : Submodule ℝ (Ω → ℝ)}
  {κ : Type} [Fintype κ] {W : κ → Ω → ℝ} {x : Ω → Mixture (Vec n) n M} {P : Fin M → Mat n n} {τ : ℝ} {l : Fin M → List (Noise Ω)}
  {p : Fin M → (κ → ℝ) → ℝ} {T : Set (κ → ℝ)}

theorem Bank.predict (A : Fin M → Inp U → ℝ → Mat n n) (b : Fin M → Inp U → ℝ → Vec n) (Q : Fin M → Inp U → ℝ → Mat n n)
    (hQ : ∀ i u dt, 0 ≤ dt → (Q i u dt).PosSemidef) {u : StInp U} {t : ℝ} (ht : τ ≤ t)
    (h : Bank ν w X D W x P τ (fun i => procNoise (A i) (b i) (Q i) X u τ t :: l i) p T) :
    Bank ν w X D W (fun ω => ⟨fun i => linPred (A i) (b i) (Q i) ⟨u.value, some u.stamp⟩ τ t ((x ω).states i), (x ω).probs⟩)
      (fun i => A i ⟨u.value, some u.stamp⟩ (t - τ) * P i * (A i ⟨u.value, some u.stamp⟩ (t - τ))ᵀ + Q i ⟨u.value, some u.stamp⟩ (t - τ))
      t l p T :=
  ⟨fun i => (h.mode i).predict (A i) (b i) (Q i) (hQ i _ _ (by linarith)), h.pos, h.meas, h.probs⟩

theorem Bank.correct (hw : ∀ i, 0 < w i) {y : RMeas Ω n} (hR : y.R.PosDef) (h : Bank ν w X D W x P τ (fun i => measNoise X τ y :: l i) p T) :
    ∃ (p' : Fin M → (κ ⊕ Fin y.m → ℝ) → ℝ) (T' : Set (κ ⊕ Fin y.m → ℝ)),
      Bank ν w X (addData D y) (Sum.elim W fun j ω => y.value ω j) (fun ω => bankPost y (y.value ω) τ (x ω)) (fun i => kCov (P i) y.C y.R)
        τ l p' T' ∧
      ∀ ω, (fun k => Sum.elim W (fun j ω => y.value ω j) k ω) ∈ T' ↔ (fun k => W k ω) ∈ T ∧ ∃ i, 1 / 10 ^ 8 <
        (x ω).probs i * gaussPdf (y.value ω - y.C *ᵥ ((x ω).states i).state.value) (y.C * ((x ω).states i).cov * y.Cᵀ + y.R) := by
  choose p' hm hp using fun i => (h.mode i).correct hR
  have hin : Measurable fun d : κ ⊕ Fin y.m → ℝ => (fun k => d (.inl k) : κ → ℝ) := by fun_prop
  have hlik : ∀ ω i, 0 < gaussPdf (y.value ω - y.C *ᵥ ((x ω).states i).state.value) (y.C * ((x ω).states i).cov * y.Cᵀ + y.R) := by
    intro ω i
    refine pdf_pos (innov_pd ?_ y.C hR) _
    rw [(h.mode i).cov ω]
    exact (h.mode i).psd
  -- weight times likelihood, as a function of the data
  have hq : ∀ ω, (fun k => W k ω) ∈ T → ∀ i,
      (x ω).probs i * gaussPdf (y.value ω - y.C *ᵥ ((x ω).states i).state.value) (y.C * ((x ω).states i).cov * y.Cᵀ + y.R)
        = w i * p' i (fun k => Sum.elim W (fun j ω => y.value ω j) k ω) / ∑ j, w j * p j (fun k => W k ω) := by
    intro ω hT i
    rw [h.probs ω hT i, hp i ω]
    ring
  refine ⟨p', {d | (fun k => d (.inl k)) ∈ T ∧ ∃ i, 1 / 10 ^ 8 < w i * p' i d / ∑ j, w j * p j (fun k => d (.inl k))},
    ⟨hm, fun ω i => renormalize_pos (fun i => mul_pos (h.pos ω i) (hlik ω i)) i, ?_, fun ω hT i => ?_⟩, fun ω => ?_⟩
  · have hsum : Measurable fun d : κ ⊕ Fin y.m → ℝ => ∑ j, w j * p j (fun k => d (.inl k)) :=
      Finset.measurable_fun_sum _ fun j _ => (((h.mode j).pm).comp hin).const_mul _
    have : {d : κ ⊕ Fin y.m → ℝ | ∃ i, 1 / 10 ^ 8 < w i * p' i d / ∑ j, w j * p j (fun k => d (.inl k))}
        = ⋃ i, {d | 1 / 10 ^ 8 < w i * p' i d / ∑ j, w j * p j (fun k => d (.inl k))} := by
      ext d
      simp
    have key : MeasurableSet {d : κ ⊕ Fin y.m → ℝ | ∃ i, 1 / 10 ^ 8 < w i * p' i d / ∑ j, w j * p j (fun k => d (.inl k))} := by
      rw [this]
      exact MeasurableSet.iUnion fun i => measurableSet_lt measurable_const (((hm i).pm.const_mul _).div hsum)
    exact (hin h.meas).inter key
  · obtain ⟨hT, i0, hi0⟩ := hT
    have hT : (fun k => W k ω) ∈ T := hT
    have hsum : 0 < ∑ j, w j * p j (fun k => W k ω) :=
      Finset.sum_pos (fun j _ => mul_pos (hw j) ((h.mode j).pos _)) ⟨i, Finset.mem_univ i⟩
    have hi0 : 1 / 10 ^ 8 < w i0 * p' i0 (fun k => Sum.elim W (fun j ω => y.value ω j) k ω) / ∑ j, w j * p j (fun k => W k ω) := hi0
    show renormalize (fun i => (x ω).probs i * gaussPdf (y.value ω - y.C *ᵥ ((x ω).states i).state.value)
      (y.C * ((x ω).states i).cov * y.Cᵀ + y.R)) i = _
    unfold renormalize
    rw [if_neg (by
      push Not
      refine ⟨i0, ?_⟩
      rw [hq ω hT i0]
      exact lt_of_lt_of_le hi0 (le_abs_self _))]
    simp only [hq ω hT]
    rw [← Finset.sum_div, div_div_div_cancel_right₀ hsum.ne']
  · constructor
    · rintro ⟨hT, i, hi⟩
      refine ⟨hT, i, ?_⟩
      rw [hq ω hT i]
      exact hi
    · rintro ⟨hT, i, hi⟩
      refine ⟨hT, i, ?_⟩
      rw [hq ω hT i] at hi
      exact hi

end bank

theorem dataVec_cons {E : Type} [MeasurableSpace E] {W : Ω → E} {y : RMeas Ω n} {ys : List (RMeas Ω n)} {g : E → Vec y.m}
    (hg : Measurable g) (hy : ∀ ω, y.value ω = g (W ω)) {δ : E → (Σ k : Fin ys.length, Fin (ys.get k).m) → ℝ} (hδ : Measurable δ)
    (hd : ∀ ω, dataVec ys ω = δ (W ω)) :
    ∃ δ' : E → (Σ k : Fin (y :: ys).length, Fin ((y :: ys).get k).m) → ℝ, Measurable δ' ∧ ∀ ω, dataVec (y :: ys) ω = δ' (W ω) := by
  have h : ∀ q : Σ k : Fin (y :: ys).length, Fin ((y :: ys).get k).m, ∃ h : E → ℝ, Measurable h ∧
      ∀ ω, dataVec (y :: ys) ω q = h (W ω) := by
    rintro ⟨⟨k, hk⟩, j⟩
    cases k with
    | zero =>
      exact ⟨fun e => g e j, (measurable_pi_apply j).comp hg, fun ω => congrFun (hy ω) j⟩
    | succ k =>
      have hk' : k < ys.length := Nat.lt_of_succ_lt_succ hk
      exact ⟨fun e => δ e ⟨⟨k, hk'⟩, j⟩, (measurable_pi_apply _).comp hδ, fun ω => congrFun (hd ω) ⟨⟨k, hk'⟩, j⟩⟩
  choose h h1 h2 using h
  exact ⟨fun e q => h q e, measurable_pi_lambda _ h1, fun ω => funext fun q => h2 q ω⟩

section events
variable {ν : Fin M → Measure Ω} [∀ i, IsProbabilityMeasure (ν i)] {w : Fin M → ℝ} (X : ℝ → Ω → Vec n)
variable (A : Fin M → Inp U → ℝ → Mat n n) (b : Fin M → Inp U → ℝ → Vec n) (Q : Fin M → Inp U → ℝ → Mat n n) (chi : ℕ → ℝ)

/-- What is known when the mixture `r` is recorded, after the events `pre`. -/
def AtRecord (ν : Fin M → Measure Ω) (w : Fin M → ℝ) (X : ℝ → Ω → Vec n) (r : Ω → Mixture (Vec n) n M) (ys : List (RMeas Ω n))
    (good : Set Ω) {κ : Type} (W : κ → Ω → ℝ) : Prop :=
  ∃ (t : ℝ) (P : Fin M → Mat n n) (D : Submodule ℝ (Ω → ℝ)) (κ' : Type) (_ : Fintype κ') (W' : κ' → Ω → ℝ) (l : Fin M → List (Noise Ω))
    (p : Fin M → (κ' → ℝ) → ℝ) (T : Set (κ' → ℝ)), Bank ν w X D W' r P t l p T ∧
    (∀ ω, (fun k => W' k ω) ∈ T ↔ ω ∈ good) ∧
    (∃ g : (κ' → ℝ) → κ → ℝ, Measurable g ∧ ∀ ω, (fun k => W k ω) = g (fun k => W' k ω)) ∧
    ∃ δ : (κ' → ℝ) → (Σ k : Fin ys.length, Fin (ys.get k).m) → ℝ, Measurable δ ∧ ∀ ω, dataVec ys ω = δ (fun k => W' k ω)

theorem bank_events (hw : ∀ i, 0 < w i) (hQ : ∀ i u dt, 0 ≤ dt → (Q i u dt).PosSemidef) {ok : RMeas Ω n → Prop}
    {f : Ω → FilterApi (Mixture (Vec n) n M) (StInp U) (RMeas Ω n)} (hf : BankSpec A b Q ok f) :
    ∀ (es : List (Ev (StInp U) (RMeas Ω n))) (x : Ω → Mixture (Vec n) n M) (P : Fin M → Mat n n) (τ : ℝ) (D : Submodule ℝ (Ω → ℝ))
      (κ : Type) [Fintype κ] (W : κ → Ω → ℝ) (p : Fin M → (κ → ℝ) → ℝ) (T : Set (κ → ℝ)), ForwardR τ es → (∀ y ∈ fused es, ok y) →
      Bank ν w X D W x P τ (fun i => noises (A i) (b i) (Q i) X τ es) p T →
      ∃ rs : List (Ω → Mixture (Vec n) n M), (∀ ω, exec (f ω) es (x ω) = .ok (rs.map (· ω))) ∧ rs.length = recorded es ∧
        ∀ (j : ℕ) (r : Ω → Mixture (Vec n) n M), rs[j]? = some r → ∃ pre post, es = pre ++ Ev.record :: post ∧ recorded pre = j ∧
          AtRecord ν w X r (fused pre) {ω | (fun k => W k ω) ∈ T ∧
            NoReset (f ω) (fun i => linFilter (A i) (b i) (Q i) chi) ω pre (x ω)} W
  | [], x, P, τ, D, κ, _, W, p, T, hfw, hok, hb => ⟨[], fun ω => rfl, rfl, by simp⟩
  | .record :: es, x, P, τ, D, κ, _, W, p, T, hfw, hok, hb => by
    obtain ⟨rs, h1, h2, h3⟩ := bank_events hw hQ hf es x P τ D κ W p T hfw hok hb
    refine ⟨x :: rs, fun ω => ?_, by simp [recorded, h2], fun j r hr => ?_⟩
    · unfold exec
      rw [h1 ω]
      rfl
    · cases j with
      | zero =>
        simp only [List.getElem?_cons_zero, Option.some.injEq] at hr
        subst hr
        refine ⟨[], es, rfl, rfl, τ, P, D, κ, inferInstance, W, _, p, T, hb, fun ω => ?_, ⟨id, measurable_id, fun ω => rfl⟩,
          fun _ q => q.1.elim0, measurable_pi_lambda _ fun q => q.1.elim0, fun ω => funext fun q => q.1.elim0⟩
        exact ⟨fun h => ⟨h, trivial⟩, fun h => h.1⟩
      | succ j =>
        simp only [List.getElem?_cons_succ] at hr
        obtain ⟨pre, post, g1, g2, g3⟩ := h3 j r hr
        exact ⟨.record :: pre, post, by rw [g1]; rfl, by simp [recorded, g2], g3⟩
  | .predict u t :: es, x, P, τ, D, κ, _, W, p, T, hfw, hok, hb => by
    obtain ⟨rs, h1, h2, h3⟩ := bank_events hw hQ hf es _ _ t D κ W p T hfw.2 hok (hb.predict A b Q hQ hfw.1)
    have hp : ∀ ω, predictTo (f ω) (x ω) u t
        = .ok ⟨fun i => linPred (A i) (b i) (Q i) ⟨u.value, some u.stamp⟩ τ t ((x ω).states i), (x ω).probs⟩ := fun ω =>
      hf.predict ω (x ω) u τ t (fun i => (hb.mode i).stamp ω) hfw.1 (fun i => by rw [(hb.mode i).cov ω]; exact (hb.mode i).psd)
    refine ⟨rs, fun ω => ?_, h2, fun j r hr => ?_⟩
    · unfold exec
      rw [hp ω]
      exact h1 ω
    · obtain ⟨pre, post, g1, g2, t', P', D', κ', i', W', l', p', T', k1, k2, k3, k4⟩ := h3 j r hr
      refine ⟨.predict u t :: pre, post, by rw [g1]; rfl, by simp [recorded, g2], t', P', D', κ', i', W', l', p', T', k1, fun ω => ?_, k3, k4⟩
      rw [k2 ω]
      constructor
      · rintro ⟨e1, e2⟩
        exact ⟨e1, _, hp ω, e2⟩
      · rintro ⟨e1, x', e2, e3⟩
        rw [hp ω] at e2
        cases e2
        exact ⟨e1, e3⟩
  | .correct y u :: es, x, P, τ, D, κ, _, W, p, T, hfw, hok, hb => by
    obtain ⟨ht, hR, hfw⟩ := hfw
    have hpsd : ∀ ω i, ((x ω).states i).cov.PosSemidef := fun ω i => by rw [(hb.mode i).cov ω]; exact (hb.mode i).psd
    have hstep : ∀ ω, (f ω).correct (x ω) y u = .ok (bankPost y (y.value ω) (if y.stamp - τ > 1 / 10 ^ 11 then y.stamp else τ)
        ⟨fun i => fuseAt (A i) (b i) (Q i) u τ y.stamp ((x ω).states i), (x ω).probs⟩) := fun ω =>
      hf.correct ω (x ω) y u τ (hok y (by simp [fused])) hR (fun i => (hb.mode i).stamp ω) ht (hpsd ω) (hb.pos ω)
    have hD : ∀ ω i, (linFilter (A i) (b i) (Q i) chi).correctD ((x ω).states i) (y.at ω).meas (some ⟨u.value, some u.stamp⟩) none none
        = .ok (linPost y.C y.R (y.value ω) (if y.stamp - τ > 1 / 10 ^ 11 then y.stamp else τ)
            (fuseAt (A i) (b i) (Q i) u τ y.stamp ((x ω).states i)),
          some ⟨y.m, y.value ω - y.C *ᵥ (fuseAt (A i) (b i) (Q i) u τ y.stamp ((x ω).states i)).state.value,
            y.C * (fuseAt (A i) (b i) (Q i) u τ y.stamp ((x ω).states i)).cov * y.Cᵀ + y.R, false⟩) := fun ω i =>
      lin_correctD (A i) (b i) (Q i) chi (hQ i) u y.C (y.value ω) y.stamp hR ((hb.mode i).stamp ω) (hpsd ω i) ht
    -- the modes where the measurement is fused
    have hb' : ∃ P', Bank ν w X D W (fun ω => ⟨fun i => fuseAt (A i) (b i) (Q i) u τ y.stamp ((x ω).states i), (x ω).probs⟩) P'
        (if y.stamp - τ > 1 / 10 ^ 11 then y.stamp else τ)
        (fun i => measNoise X (if y.stamp - τ > 1 / 10 ^ 11 then y.stamp else τ) y ::
          noises (A i) (b i) (Q i) X (if y.stamp - τ > 1 / 10 ^ 11 then y.stamp else τ) es) p T := by
      unfold fuseAt
      by_cases hlt : y.stamp - τ > 1 / 10 ^ 11
      · simp only [if_pos hlt]
        refine ⟨_, Bank.predict (P := P) A b Q hQ ht ?_⟩
        have e : (fun i => procNoise (A i) (b i) (Q i) X u τ y.stamp :: measNoise X y.stamp y :: noises (A i) (b i) (Q i) X y.stamp es)
            = fun i => noises (A i) (b i) (Q i) X τ (.correct y u :: es) := by
          funext i
          simp only [noises, if_pos hlt]
        rw [e]
        exact hb
      · simp only [if_neg hlt]
        refine ⟨P, ?_⟩
        have e : (fun i => measNoise X τ y :: noises (A i) (b i) (Q i) X τ es)
            = fun i => noises (A i) (b i) (Q i) X τ (.correct y u :: es) := by
          funext i
          simp only [noises, if_neg hlt]
        rw [e]
        exact hb
    obtain ⟨P', hb'⟩ := hb'
    obtain ⟨p', T', hb2, hT'⟩ := hb'.correct hw hR
    obtain ⟨rs, h1, h2, h3⟩ := bank_events hw hQ hf es _ _ _ (addData D y) (κ ⊕ Fin y.m) (Sum.elim W fun j ω => y.value ω j) p' T' hfw
      (fun y' hy' => hok y' (by simp [fused, hy'])) hb2
    refine ⟨rs, fun ω => ?_, h2, fun j r hr => ?_⟩
    · unfold exec
      rw [hstep ω]
      exact h1 ω
    · obtain ⟨pre, post, g1, g2, t', P'', D', κ', i', W', l', p'', T'', k1, k2, ⟨g, k3, k3'⟩, δ, k4, k4'⟩ := h3 j r hr
      have hgr : Measurable fun e => (fun j => g e (.inr j) : Vec y.m) := by fun_prop
      have hgl : Measurable fun e => (fun k => g e (.inl k) : κ → ℝ) := by fun_prop
      refine ⟨.correct y u :: pre, post, by rw [g1]; rfl, by simp [recorded, g2], t', P'', D', κ', i', W', l', p'', T'', k1, fun ω => ?_,
        ⟨_, hgl, fun ω => funext fun k => congrFun (k3' ω) (.inl k)⟩,
        dataVec_cons hgr (fun ω => funext fun j => congrFun (k3' ω) (.inr j)) k4 k4'⟩
      rw [k2 ω]
      constructor
      · rintro ⟨e1, e2⟩
        obtain ⟨e1, i, hi⟩ := (hT' ω).mp e1
        exact ⟨e1, ⟨i, _, _, hD ω i, hi⟩, _, hstep ω, e2⟩
      · rintro ⟨e1, ⟨i, x1, d, e2, e3⟩, x', e4, e5⟩
        rw [hstep ω] at e4
        cases e4
        rw [hD ω i] at e2
        cases e2
        exact ⟨(hT' ω).mpr ⟨e1, i, e3⟩, e5⟩

end events

/-! ### From densities to the posterior -/

theorem atRecord_posterior {μ : Measure Ω} [IsProbabilityMeasure μ] {K : Ω → Fin M} (hK : Measurable K) {w : Fin M → ℝ}
    (hw : ∀ i, 0 < w i) (hprior : ∀ i, μ {ω | K ω = i} = ENNReal.ofReal (w i)) {X : ℝ → Ω → Vec n} {r : Ω → Mixture (Vec n) n M}
    {ys : List (RMeas Ω n)} {good : Set Ω} {κ : Type} {W : κ → Ω → ℝ}
    (h : AtRecord (fun i => μ[|{ω | K ω = i}]) w X r ys good W) : ∃ t, MixturePosterior μ K X ys r t good := by
  obtain ⟨t, P, D, κ', _, W', l, p, T, hb, hgood, -, δ, hδ, hdata⟩ := h
  have hne : ∀ i, μ {ω | K ω = i} ≠ 0 := fun i => by rw [hprior i]; exact (ENNReal.ofReal_pos.mpr (hw i)).ne'
  have hprob : ∀ i, IsProbabilityMeasure (μ[|{ω | K ω = i}]) := fun i => cond_isProbabilityMeasure (hne i)
  have hKm : ∀ i, MeasurableSet {ω | K ω = i} := fun i => hK (measurableSet_singleton i)
  have hμ : μ = ∑ i, ENNReal.ofReal (w i) • μ[|{ω | K ω = i}] := by
    conv_lhs => rw [← sum_meas_smul_cond_fiber hK μ]
    exact Finset.sum_congr rfl fun i _ => by rw [← hprior i]; rfl
  have hWm : AEMeasurable (fun ω k => W' k ω) μ := by
    rw [hμ, ← Measure.sum_fintype]
    exact AEMeasurable.sum_measure fun i => ((hb.mode i).meas).smul_measure _
  refine ⟨t, fun ω i => (hb.mode i).stamp ω, fun i S hS B hB => ?_⟩
  have hT1 : MeasurableSet (T ∩ δ ⁻¹' S) := hb.meas.inter (hδ hS)
  have hset : {ω | ω ∈ good ∧ dataVec ys ω ∈ S} = (fun ω k => W' k ω) ⁻¹' (T ∩ δ ⁻¹' S) := by
    ext ω
    show ω ∈ good ∧ dataVec ys ω ∈ S ↔ (fun k => W' k ω) ∈ T ∧ δ (fun k => W' k ω) ∈ S
    rw [hgood ω, hdata ω]
  obtain ⟨g, g1, g2, g3⟩ := (hb.mode i).posterior hT1 hB
  have e1 : {ω | ω ∈ good ∧ dataVec ys ω ∈ S ∧ K ω = i ∧ X t ω ∈ B}
      = {ω | K ω = i} ∩ {ω | (fun k => W' k ω) ∈ T ∩ δ ⁻¹' S ∧ X t ω ∈ B} := by
    ext ω
    have := Set.ext_iff.mp hset ω
    constructor
    · rintro ⟨a1, a2, a3, a4⟩
      exact ⟨a3, this.mp ⟨a1, a2⟩, a4⟩
    · rintro ⟨a3, a1, a4⟩
      exact ⟨(this.mpr a1).1, (this.mpr a1).2, a3, a4⟩
  rw [e1, ← cond_mul_eq_inter (hKm i), hprior i, g3, mul_comm, hset,
    ← bayes_rule hw hμ (fun j => (hb.mode j).meas) (fun j => (hb.mode j).pm) (fun j => (hb.mode j).pos) (fun j => (hb.mode j).dens) hT1 g1 i]
  refine lintegral_congr_ae ((ae_restrict_iff'₀ (hWm.nullMeasurable hT1)).mpr (ae_of_all _ fun ω hω => ?_))
  have hω : (fun k => W' k ω) ∈ T := hω.1
  show _ = ENNReal.ofReal ((r ω).probs i) * normal ((r ω).states i).cov {e | ((r ω).states i).state.value + e ∈ B}
  beta_reduce
  rw [hb.probs ω hω i, g2, (hb.mode i).cov ω]

/-- C122: the distribution of the state given the data is the mixture: the sum over the modes. -/
theorem C122_state {μ : Measure Ω} {K : Ω → Fin M} (hK : Measurable K) {X : ℝ → Ω → Vec n} {r : Ω → Mixture (Vec n) n M}
    {ys : List (RMeas Ω n)} {t : ℝ} {good : Set Ω} (h : MixturePosterior μ K X ys r t good)
    {S : Set ((Σ k : Fin ys.length, Fin (ys.get k).m) → ℝ)} (hS : MeasurableSet S) {B : Set (Vec n)} (hB : MeasurableSet B) :
    μ {ω | ω ∈ good ∧ dataVec ys ω ∈ S ∧ X t ω ∈ B}
      = ∑ i, ∫⁻ ω in {ω | ω ∈ good ∧ dataVec ys ω ∈ S},
          ENNReal.ofReal ((r ω).probs i) * normal ((r ω).states i).cov {e | ((r ω).states i).state.value + e ∈ B} ∂μ := by
  have e : ∀ i, μ {ω | ω ∈ good ∧ dataVec ys ω ∈ S ∧ K ω = i ∧ X t ω ∈ B}
      = (μ.restrict {ω | ω ∈ good ∧ dataVec ys ω ∈ S ∧ X t ω ∈ B}) (K ⁻¹' {i}) := by
    intro i
    rw [Measure.restrict_apply (hK (measurableSet_singleton i))]
    congr 1
    ext ω
    constructor
    · rintro ⟨a1, a2, a3, a4⟩
      exact ⟨a3, a1, a2, a4⟩
    · rintro ⟨a3, a1, a2, a4⟩
      exact ⟨a1, a2, a3, a4⟩
  simp only [← h.post _ S hS B hB, e]
  rw [sum_measure_preimage_singleton Finset.univ fun i _ => hK (measurableSet_singleton i)]
  simp

/-- C122: the weight of component `i` is the probability of mode `i` given the data. -/
theorem C122_mode {μ : Measure Ω} {K : Ω → Fin M} {X : ℝ → Ω → Vec n} {r : Ω → Mixture (Vec n) n M}
    {ys : List (RMeas Ω n)} {t : ℝ} {good : Set Ω} (h : MixturePosterior μ K X ys r t good)
    {S : Set ((Σ k : Fin ys.length, Fin (ys.get k).m) → ℝ)} (hS : MeasurableSet S) (i : Fin M) :
    μ {ω | ω ∈ good ∧ dataVec ys ω ∈ S ∧ K ω = i}
      = ∫⁻ ω in {ω | ω ∈ good ∧ dataVec ys ω ∈ S}, ENNReal.ofReal ((r ω).probs i) ∂μ := by
  have := h.post i S hS Set.univ MeasurableSet.univ
  simpa using this

/-! ### Running a filter on the data of an outcome -/

/-- The filter `g` in the outcome `ω`, fed with random measurements. -/
def atApi {Z : Type} (g : FilterApi Z (StInp U) (StMeas (Vec n) n)) (ω : Ω) : FilterApi Z (StInp U) (RMeas Ω n) where
  correct x y u := g.correct x (y.at ω) u
  predict := g.predict
  xstamp := g.xstamp
  istamp := g.istamp
  ystamp := RMeas.stamp

theorem atApi_sim {Z : Type} (g : FilterApi Z (StInp U) (StMeas (Vec n) n)) (hg : g.ystamp = StMeas.stamp) (ω : Ω) :
    FilterSim (atApi g ω) g 0 Eq Eq (fun y y' => y' = y.at ω) := by
  refine ⟨?_, ?_, ?_, ?_, ?_⟩
  · rintro x _ rfl
    show g.xstamp x = (g.xstamp x).map (· + 0)
    cases g.xstamp x <;> simp
  · rintro u _ rfl; exact (add_zero _).symm
  · rintro y _ rfl
    rw [hg]
    exact (add_zero _).symm
  · rintro x _ u _ dt rfl rfl
    show ExRel Eq (g.predict x u dt) (g.predict x u dt)
    cases g.predict x u dt <;> rfl
  · rintro x _ u _ y _ rfl rfl rfl
    show ExRel Eq (g.correct x (y.at ω) u) (g.correct x (y.at ω) u)
    cases g.correct x (y.at ω) u <;> rfl

theorem run_at {Z : Type} (g : FilterApi Z (StInp U) (StMeas (Vec n) n)) (hg : g.ystamp = StMeas.stamp) (ω : Ω) (x0 : Z)
    (ins : List (StInp U)) (meas : List (RMeas Ω n)) :
    runFilter g x0 ins (meas.map (·.at ω)) = runFilter (atApi g ω) x0 ins meas := by
  have h := (atApi_sim g hg ω).runFilter (x0 := x0) (x0' := x0) rfl (ins := ins) (ins' := ins)
    (List.forall₂_same.mpr fun _ _ => rfl) (meas := meas) (meas' := meas.map (·.at ω))
    (by
      rw [List.forall₂_map_right_iff]
      exact List.forall₂_same.mpr fun _ _ => rfl)
  refine (exRel_eq (h.mono fun a b hab => ?_)).symm
  exact List.forall₂_eq_eq_eq ▸ hab

theorem runImm_at {Z : Type} (g : FilterApi Z (StInp U) (StMeas (Vec n) n)) (hg : g.ystamp = StMeas.stamp) (ω : Ω) (x0 : Z)
    (ins : List (StInp U)) (meas : List (RMeas Ω n)) :
    runImm g x0 ins (meas.map (·.at ω)) = runImm (atApi g ω) x0 ins meas := by
  have h := (atApi_sim g hg ω).runImm (x0 := x0) (x0' := x0) rfl (ins := ins) (ins' := ins)
    (List.forall₂_same.mpr fun _ _ => rfl) (meas := meas) (meas' := meas.map (·.at ω))
    (by
      rw [List.forall₂_map_right_iff]
      exact List.forall₂_same.mpr fun _ _ => rfl)
  refine (exRel_eq (h.mono fun a b hab => ?_)).symm
  exact List.forall₂_eq_eq_eq ▸ hab

/-! ### The two filters -/

theorem gsf_bank (A : Inp U → ℝ → Mat n n) (b : Inp U → ℝ → Vec n) (Q : Inp U → ℝ → Mat n n) (chi : ℕ → ℝ)
    (hQ : ∀ u dt, 0 ≤ dt → (Q u dt).PosSemidef) :
    BankSpec (Ω := Ω) (M := M + 1) (fun _ => A) (fun _ => b) (fun _ => Q) (fun y => y.m = 1)
      (fun ω => atApi (gsfApi (linFilter A b Q chi)) ω) := by
  refine ⟨fun ω x u τ t hs ht hP => ?_, fun ω x y u τ hm hR hs ht hP hpos => ?_⟩
  · unfold predictTo
    rw [show (atApi (gsfApi (linFilter A b Q chi)) ω).xstamp x = some τ from hs 0]
    show gsfPredict (linFilter A b Q chi) x (some ⟨u.value, some u.stamp⟩) (some (t - τ)) = _
    unfold gsfPredict
    rw [seqFin_of (g := fun i => linPred A b Q ⟨u.value, some u.stamp⟩ τ t (x.states i)) fun i => ?_]
    · rfl
    · have := psd_step_predict A b Q chi u (hs i) ht (hP i) (hQ _ _ (by linarith))
      unfold predictTo at this
      rw [show (ekfApi (linFilter A b Q chi)).xstamp (x.states i) = some τ from hs i] at this
      exact this
  · show gsfCorrect (linFilter A b Q chi) x (y.at ω).meas (some ⟨u.value, some u.stamp⟩) = _
    unfold gsfCorrect
    rw [seqFin_of (g := fun i => (linPost y.C y.R (y.value ω) (if y.stamp - τ > 1 / 10 ^ 11 then y.stamp else τ)
        (fuseAt A b Q u τ y.stamp (x.states i)),
      gaussPdf (y.value ω - y.C *ᵥ (fuseAt A b Q u τ y.stamp (x.states i)).state.value)
        (y.C * (fuseAt A b Q u τ y.stamp (x.states i)).cov * y.Cᵀ + y.R))) fun i => ?_]
    · rfl
    · have := lin_correctD A b Q chi hQ u y.C (y.value ω) y.stamp hR (hs i) (hP i) ht
      show gsfCorrectLik (linFilter A b Q chi) (x.states i) (linMeas y.C y.R (y.value ω) (some y.stamp)) (some ⟨u.value, some u.stamp⟩) = _
      unfold gsfCorrectLik
      rw [this]
      exact if_pos hm

theorem interaction_id (f : Imm (Vec n) U n M) (hops : f.ops = vecOps n) (hT : f.trans = 1) {x : Mixture (Vec n) n M} {τ : ℝ}
    (hs : ∀ i, (x.states i).state.stamp = some τ) (hp : ∀ i, 0 < x.probs i) : f.interaction x = .ok x := by
  have hpred : ∀ j, predProb f.trans x.probs j = x.probs j := by
    intro j
    unfold predProb
    rw [hT]
    simp [Matrix.one_apply]
  have hW : ∀ i j, mixWeight f.trans x.probs i j = if i = j then 1 else 0 := by
    intro i j
    unfold mixWeight
    rw [hpred, hT, Matrix.one_apply]
    by_cases h : i = j
    · subst h
      have := (hp i).ne'
      simp only [if_true]
      field_simp
    · simp [h]
  unfold Imm.interaction
  rw [if_neg (by rintro ⟨j, hj⟩; rw [hpred] at hj; exact (hp j).ne' hj), seqFin_of (g := x.states) fun j => ?_]
  · rfl
  · obtain ⟨r, i, h1, h2, h3, h4, -, -⟩ := C20_mixing_vector (by have := j.pos; omega) (fun i => mixWeight f.trans x.probs i j)
      (by simp [hW]) x.states
    rw [hops, h1]
    congr 1
    have h2 : r.state.value = (x.states j).state.value := by
      rw [h2]
      simp [hW]
    have h3 : r.cov = (x.states j).cov := by
      rw [h3]
      simp only [hW, ite_smul, one_smul, zero_smul, Finset.sum_ite_eq', Finset.mem_univ, if_true]
      rw [h2, sub_self, vecMulVec_zero, add_zero]
    have h4 : r.state.stamp = (x.states j).state.stamp := h4.trans ((hs i).trans (hs j).symm)
    generalize x.states j = q at h2 h3 h4 ⊢
    obtain ⟨⟨rv, rs⟩, rc⟩ := r
    obtain ⟨⟨xv, xs⟩, xc⟩ := q
    simp only at h2 h3 h4
    rw [h2, h3, h4]

theorem imm_bank (A : Fin (M + 1) → Inp U → ℝ → Mat n n) (b : Fin (M + 1) → Inp U → ℝ → Vec n) (Q : Fin (M + 1) → Inp U → ℝ → Mat n n)
    (chi : ℕ → ℝ) (hQ : ∀ i u dt, 0 ≤ dt → (Q i u dt).PosSemidef) :
    BankSpec (Ω := Ω) A b Q (fun _ => True)
      (fun ω => atApi (immApi ⟨fun i => linFilter (A i) (b i) (Q i) chi, vecOps n, 1⟩) ω) := by
  refine ⟨fun ω x u τ t hs ht hP => ?_, fun ω x y u τ hm hR hs ht hP hpos => ?_⟩
  · unfold predictTo
    rw [show (atApi (immApi ⟨fun i => linFilter (A i) (b i) (Q i) chi, vecOps n, 1⟩) ω).xstamp x = some τ from hs 0]
    show Imm.predict ⟨fun i => linFilter (A i) (b i) (Q i) chi, vecOps n, 1⟩ x (some ⟨u.value, some u.stamp⟩) (some (t - τ)) = _
    unfold Imm.predict
    rw [seqFin_of (g := fun i => linPred (A i) (b i) (Q i) ⟨u.value, some u.stamp⟩ τ t (x.states i)) fun i => ?_]
    · rfl
    · have := psd_step_predict (A i) (b i) (Q i) chi u (hs i) ht (hP i) (hQ i _ _ (by linarith))
      unfold predictTo at this
      rw [show (ekfApi (linFilter (A i) (b i) (Q i) chi)).xstamp (x.states i) = some τ from hs i] at this
      exact this
  · have h1 : (atApi (immApi ⟨fun i => linFilter (A i) (b i) (Q i) chi, vecOps n, 1⟩) ω).correct x y u
        = (Imm.interaction (⟨fun i => linFilter (A i) (b i) (Q i) chi, vecOps n, 1⟩ : Imm (Vec n) U n (M + 1)) x) >>= fun x' =>
          Imm.correct ⟨fun i => linFilter (A i) (b i) (Q i) chi, vecOps n, 1⟩ x' (y.at ω).meas (some ⟨u.value, some u.stamp⟩) := rfl
    rw [h1, interaction_id _ rfl rfl hs hpos]
    show Imm.correct ⟨fun i => linFilter (A i) (b i) (Q i) chi, vecOps n, 1⟩ x (y.at ω).meas (some ⟨u.value, some u.stamp⟩) = _
    unfold Imm.correct
    rw [seqFin_of (g := fun i => (linPost y.C y.R (y.value ω) (if y.stamp - τ > 1 / 10 ^ 11 then y.stamp else τ)
        (fuseAt (A i) (b i) (Q i) u τ y.stamp (x.states i)),
      gaussPdf (y.value ω - y.C *ᵥ (fuseAt (A i) (b i) (Q i) u τ y.stamp (x.states i)).state.value)
        (y.C * (fuseAt (A i) (b i) (Q i) u τ y.stamp (x.states i)).cov * y.Cᵀ + y.R))) fun i => ?_]
    · show Except.ok _ = Except.ok _
      congr 1
      unfold bankPost
      congr 2
      funext i
      show _ * predProb (1 : Mat (M + 1) (M + 1)) x.probs i = _
      have hpred : predProb (1 : Mat (M + 1) (M + 1)) x.probs i = x.probs i := by
        unfold predProb
        simp [Matrix.one_apply]
      rw [hpred, mul_comm]
    · have := lin_correctD (A i) (b i) (Q i) chi (hQ i) u y.C (y.value ω) y.stamp hR (hs i) (hP i) ht
      show correctLik (linFilter (A i) (b i) (Q i) chi) (x.states i) (linMeas y.C y.R (y.value ω) (some y.stamp))
        (some ⟨u.value, some u.stamp⟩) = _
      unfold correctLik
      rw [this]
      rfl

/-! ### Whole runs -/

theorem mode_init {ν : Measure Ω} [IsProbabilityMeasure ν] {X : ℝ → Ω → Vec n} {x0 : Vec n} {t0 : ℝ} {P0 : Mat n n} (hP : P0.PosSemidef)
    {l : List (Noise Ω)} (hw : White ν CovRel.exact (⟨n, fun ω => X t0 ω - x0, P0⟩ :: l))
    (hg : JointlyGaussian ν (⟨n, fun ω => X t0 ω - x0, P0⟩ :: l)) :
    Mode ν X (Submodule.span ℝ {fun _ => (1 : ℝ)}) (fun (k : Fin 0) (_ : Ω) => (k.elim0 : ℝ)) (fun _ => ⟨⟨x0, some t0⟩, P0⟩) P0 t0 l
      (fun _ => 1) := by
  have hG := noiseSpace_gauss hg
  have hone : ∀ {m : ℕ} {V : Ω → Vec m} (hV : SqInt ν V), rvMean ν V = 0 →
      Submodule.span ℝ {fun _ => (1 : ℝ)} ≤ orthSub ν V hV := by
    intro m V hV h0
    rw [Submodule.span_le]
    rintro g rfl
    refine ⟨memLp_const _, fun i => ?_⟩
    simp only [mul_one]
    exact congrFun h0 i
  have hcon : ∀ i, (fun _ : Ω => x0 i) ∈ Submodule.span ℝ {fun _ : Ω => (1 : ℝ)} := fun i => by
    have e : (fun _ : Ω => x0 i) = x0 i • fun _ : Ω => (1 : ℝ) := by funext ω; simp
    rw [e]
    exact Submodule.smul_mem _ _ (Submodule.subset_span rfl)
  have hDG : Submodule.span ℝ {fun _ : Ω => (1 : ℝ)} ≤ noiseSpace (⟨n, fun ω => X t0 ω - x0, P0⟩ :: l) := le_sup_right
  refine ⟨hP, fun _ => rfl, fun _ => rfl, hw, fun η hη => ⟨hw.sq η hη, hone _ (hw.mean η hη)⟩,
    ⟨_, noiseSpace_one _, hG, fun i => ?_, fun η hη j => noiseSpace_mem (by simp [hη]) j, hDG⟩, Submodule.subset_span rfl, hcon,
    fun k => k.elim0, ⟨fun _ => x0, measurable_const, fun _ => rfl⟩, measurable_const, fun _ => one_pos, ?_⟩
  · have e : (fun ω => X t0 ω i) = (fun ω => (X t0 ω - x0) i) + fun _ => x0 i := by
      funext ω; simp
    rw [e]
    exact Submodule.add_mem _ (noiseSpace_mem (η := ⟨n, fun ω => X t0 ω - x0, P0⟩) (by simp) i) (hDG (hcon i))
  · have e : (fun (ω : Ω) (k : Fin 0) => (k.elim0 : ℝ)) = fun _ => Fin.elim0 := rfl
    rw [e, Measure.map_const, measure_univ, one_smul]
    simp only [ENNReal.ofReal_one]
    rw [show (fun _ : Fin 0 → ℝ => (1 : ENNReal)) = 1 from rfl, withDensity_one, volume_pi, Measure.pi_of_empty _ Fin.elim0]

section run
variable {μ : Measure Ω} [IsProbabilityMeasure μ]

theorem bank_run {K : Ω → Fin (M + 1)} (hK : Measurable K) (A : Fin (M + 1) → Inp U → ℝ → Mat n n)
    (b : Fin (M + 1) → Inp U → ℝ → Vec n) (Q : Fin (M + 1) → Inp U → ℝ → Mat n n) (chi : ℕ → ℝ) (X : ℝ → Ω → Vec n)
    (hQ : ∀ i u dt, 0 ≤ dt → (Q i u dt).PosSemidef) {w : Fin (M + 1) → ℝ} (hw0 : ∀ i, 0 < w i)
    (hprior : ∀ i, μ {ω | K ω = i} = ENNReal.ofReal (w i)) (x0 : Fin (M + 1) → Vec n) (t0 : ℝ) (P0 : Fin (M + 1) → Mat n n)
    (hP : ∀ i, (P0 i).PosSemidef) {ok : RMeas Ω n → Prop}
    {f : Ω → FilterApi (Mixture (Vec n) n (M + 1)) (StInp U) (RMeas Ω n)} (hf : BankSpec A b Q ok f)
    (es : List (Ev (StInp U) (RMeas Ω n))) (hfw : ForwardR t0 es) (hok : ∀ y ∈ fused es, ok y)
    (hw : ∀ i, White (μ[|{ω | K ω = i}]) CovRel.exact (⟨n, fun ω => X t0 ω - x0 i, P0 i⟩ :: noises (A i) (b i) (Q i) X t0 es))
    (hg : ∀ i, JointlyGaussian (μ[|{ω | K ω = i}]) (⟨n, fun ω => X t0 ω - x0 i, P0 i⟩ :: noises (A i) (b i) (Q i) X t0 es)) :
    ∃ rs : List (Ω → Mixture (Vec n) n (M + 1)), (∀ ω, exec (f ω) es ⟨fun i => ⟨⟨x0 i, some t0⟩, P0 i⟩, w⟩ = .ok (rs.map (· ω))) ∧
      rs.length = recorded es ∧ ∀ (j : ℕ) (r : Ω → Mixture (Vec n) n (M + 1)), rs[j]? = some r → ∃ pre post,
        es = pre ++ Ev.record :: post ∧ recorded pre = j ∧ ∃ t, MixturePosterior μ K X (fused pre) r t
          {ω | NoReset (f ω) (fun i => linFilter (A i) (b i) (Q i) chi) ω pre ⟨fun i => ⟨⟨x0 i, some t0⟩, P0 i⟩, w⟩} := by
  have hne : ∀ i, μ {ω | K ω = i} ≠ 0 := fun i => by rw [hprior i]; exact (ENNReal.ofReal_pos.mpr (hw0 i)).ne'
  have hprob : ∀ i, IsProbabilityMeasure (μ[|{ω | K ω = i}]) := fun i => cond_isProbabilityMeasure (hne i)
  have hsum : ∑ i, w i = 1 := by
    have h1 : ∑ i, μ (K ⁻¹' {i}) = μ (K ⁻¹' (Finset.univ : Finset (Fin (M + 1)))) :=
      sum_measure_preimage_singleton Finset.univ fun i _ => hK (measurableSet_singleton i)
    rw [Finset.coe_univ, Set.preimage_univ, measure_univ] at h1
    have h2 : ∑ i, μ (K ⁻¹' {i}) = ENNReal.ofReal (∑ i, w i) := by
      rw [ENNReal.ofReal_sum_of_nonneg fun i _ => (hw0 i).le]
      exact Finset.sum_congr rfl fun i _ => hprior i
    rw [h2] at h1
    have := congrArg ENNReal.toReal h1
    rwa [ENNReal.toReal_ofReal (Finset.sum_nonneg fun i _ => (hw0 i).le), ENNReal.toReal_one] at this
  have hb : Bank (fun i => μ[|{ω | K ω = i}]) w X (Submodule.span ℝ {fun _ => (1 : ℝ)}) (fun (k : Fin 0) (_ : Ω) => (k.elim0 : ℝ))
      (fun _ => ⟨fun i => ⟨⟨x0 i, some t0⟩, P0 i⟩, w⟩) P0 t0 (fun i => noises (A i) (b i) (Q i) X t0 es) (fun _ _ => 1) Set.univ := by
    refine ⟨fun i => mode_init (hP i) (hw i) (hg i), fun _ => hw0, MeasurableSet.univ, fun ω _ i => ?_⟩
    simp only [mul_one, hsum, div_one]
  obtain ⟨rs, h1, h2, h3⟩ := bank_events X A b Q chi hw0 hQ hf es _ P0 t0 _ (Fin 0) _ _ _ hfw hok hb
  refine ⟨rs, h1, h2, fun j r hr => ?_⟩
  obtain ⟨pre, post, g1, g2, g3⟩ := h3 j r hr
  simp only [Set.mem_univ, true_and] at g3
  exact ⟨pre, post, g1, g2, atRecord_posterior hK hw0 hprior g3⟩

/-- C122: the state starts in one of the components of a Gaussian mixture (`K` says in which; the weights are `w`); the noise is white and
Gaussian given `K`; the measurements are scalar. Then the mixture that `run_gsf_filter` reports is the distribution of `K` and the state
given the measurements fused before, wherever no correction so far reset the weights. -/
theorem C122_gsf {K : Ω → Fin (M + 1)} (hK : Measurable K) (A : Inp U → ℝ → Mat n n) (b : Inp U → ℝ → Vec n) (Q : Inp U → ℝ → Mat n n)
    (chi : ℕ → ℝ) (X : ℝ → Ω → Vec n) (hQ : ∀ u dt, 0 ≤ dt → (Q u dt).PosSemidef) {w : Fin (M + 1) → ℝ} (hw0 : ∀ i, 0 < w i)
    (hprior : ∀ i, μ {ω | K ω = i} = ENNReal.ofReal (w i)) (x0 : Fin (M + 1) → Vec n) (t0 : ℝ) (P0 : Fin (M + 1) → Mat n n)
    (hP : ∀ i, (P0 i).PosSemidef) (ins : List (StInp U)) (meas : List (RMeas Ω n))
    (hi : ins = [] ∨ ∃ u ∈ ins, t0 ≤ u.stamp) (hm : meas = [] ∨ ∃ y ∈ meas, t0 ≤ y.stamp) (hR : ∀ y ∈ meas, y.R.PosDef)
    (h1 : ∀ y ∈ meas, y.m = 1)
    (hw : ∀ i, White (μ[|{ω | K ω = i}]) CovRel.exact
      (⟨n, fun ω => X t0 ω - x0 i, P0 i⟩ :: noises A b Q X t0 (runEvents t0 ins meas)))
    (hg : ∀ i, JointlyGaussian (μ[|{ω | K ω = i}]) (⟨n, fun ω => X t0 ω - x0 i, P0 i⟩ :: noises A b Q X t0 (runEvents t0 ins meas))) :
    ∃ rs : List (Ω → Mixture (Vec n) n (M + 1)),
      (∀ ω, runFilter (gsfApi (linFilter A b Q chi)) ⟨fun i => ⟨⟨x0 i, some t0⟩, P0 i⟩, w⟩ ins (meas.map (·.at ω))
        = .ok (rs.map (· ω))) ∧
      rs.length = recorded (runEvents t0 ins meas) ∧
      ∀ (j : ℕ) (r : Ω → Mixture (Vec n) n (M + 1)), rs[j]? = some r → ∃ pre post,
        runEvents t0 ins meas = pre ++ Ev.record :: post ∧ recorded pre = j ∧ ∃ t, MixturePosterior μ K X (fused pre) r t
          {ω | NoReset (atApi (gsfApi (linFilter A b Q chi)) ω) (fun _ => linFilter A b Q chi) ω pre
            ⟨fun i => ⟨⟨x0 i, some t0⟩, P0 i⟩, w⟩} := by
  obtain ⟨rs, h2, h3, h4⟩ := bank_run hK (fun _ => A) (fun _ => b) (fun _ => Q) chi X (fun _ => hQ) hw0 hprior x0 t0 P0 hP
    (gsf_bank A b Q chi hQ) (runEvents t0 ins meas) (runEvents_forward hR) (fun y hy => h1 y (runEvents_fused hy)) hw hg
  refine ⟨rs, fun ω => ?_, h3, h4⟩
  rw [run_at _ rfl, C21_run_filter_schedule (atApi (gsfApi (linFilter A b Q chi)) ω) _ t0 rfl ins meas hi hm]
  exact h2 ω

/-- The events of `run_imm_filter` on a random log. -/
noncomputable def immEvents (t0 : ℝ) (ins : List (StInp U)) (meas : List (RMeas Ω n)) : List (Ev (StInp U) (RMeas Ω n)) :=
  immSchedule StInp.stamp RMeas.stamp true (retained StInp.stamp t0 ins) (retained RMeas.stamp t0 meas)

theorem forwardR_imm {meas : List (RMeas Ω n)} (hl : ∀ y ∈ meas, y.R.PosDef)
    (hm : meas.Pairwise (fun a c => a.stamp ≤ c.stamp)) :
    ∀ (us : List (StInp U)) (u : StInp U) (τ : ℝ) (first : Bool), τ ≤ u.stamp →
      (first = true → ∀ y ∈ meas, τ ≤ y.stamp) → (u :: us).Pairwise (fun a c => a.stamp ≤ c.stamp) →
      ForwardR τ (immSchedule StInp.stamp RMeas.stamp first (u :: us) meas)
  | [], u, τ, first, h1, h2, h3 => trivial
  | u' :: us, u, τ, first, h1, h2, h3 => by
    have huu : u.stamp ≤ u'.stamp := (List.pairwise_cons.mp h3).1 u' (by simp)
    unfold immSchedule
    rw [List.append_assoc, List.append_assoc]
    show ForwardR τ (List.map (fun y => Ev.correct y u) _ ++ _)
    refine forwardR_corrects u _ _ τ (fun y hy => ?_) (hm.filter _) (fun τ' ht => ?_)
    · obtain ⟨hy1, hy2⟩ := List.mem_filter.mp hy
      simp only [decide_eq_true_eq] at hy2
      refine ⟨?_, hl y hy1⟩
      rcases hy2.1 with hf | hf
      · exact h2 hf y hy1
      · exact le_trans h1 hf
    · have hlt : τ' ≤ u'.stamp := by
        rcases ht with rfl | ⟨y, hy, rfl⟩
        · linarith
        · have := (List.mem_filter.mp hy).2
          simp only [decide_eq_true_eq] at this
          exact this.2.le
      exact ⟨hlt, forwardR_imm hl hm us u' u'.stamp false (le_refl _) (fun h => (by cases h))
        (List.pairwise_cons.mp h3).2⟩

theorem immEvents_forward {t0 : ℝ} {ins : List (StInp U)} {meas : List (RMeas Ω n)} (hl : ∀ y ∈ meas, y.R.PosDef) :
    ForwardR t0 (immEvents t0 ins meas) := by
  have hr1 : ∀ u ∈ retained StInp.stamp t0 ins, t0 ≤ u.stamp := by
    intro u hu
    unfold retained at hu
    simpa using (List.mem_filter.mp hu).2
  have hr2 : ∀ y ∈ retained RMeas.stamp t0 meas, t0 ≤ y.stamp := by
    intro u hu
    unfold retained at hu
    simpa using (List.mem_filter.mp hu).2
  have hl2 : ∀ y ∈ retained RMeas.stamp t0 meas, y.R.PosDef := by
    intro y hy
    unfold retained at hy
    exact hl y ((sortByStamp_mem _).mp (List.mem_filter.mp hy).1)
  have hs1 : (retained StInp.stamp t0 ins).Pairwise (fun a c => a.stamp ≤ c.stamp) := (sortByStamp_sorted _ _).filter _ _
  have hs2 : (retained RMeas.stamp t0 meas).Pairwise (fun a c => a.stamp ≤ c.stamp) := (sortByStamp_sorted _ _).filter _ _
  unfold immEvents
  cases hc : retained StInp.stamp t0 ins with
  | nil => exact trivial
  | cons u us =>
    rw [hc] at hs1
    exact forwardR_imm hl2 hs2 us u t0 true (hr1 u (by rw [hc]; simp)) (fun _ => hr2) hs1

/-- C123: one of `M + 1` linear models is in force for the whole run (`K` says which; each with the same probability), and the noise is
white and Gaussian given `K`. Then the mixture that `run_imm_filter` with the identity for a transition matrix reports is the
distribution of the model and the state given the measurements fused before, wherever no correction so far reset the weights. -/
theorem C123_imm {K : Ω → Fin (M + 1)} (hK : Measurable K) (A : Fin (M + 1) → Inp U → ℝ → Mat n n)
    (b : Fin (M + 1) → Inp U → ℝ → Vec n) (Q : Fin (M + 1) → Inp U → ℝ → Mat n n)
    (chi : ℕ → ℝ) (X : ℝ → Ω → Vec n) (hQ : ∀ i u dt, 0 ≤ dt → (Q i u dt).PosSemidef)
    (hprior : ∀ i, μ {ω | K ω = i} = ENNReal.ofReal (1 / (M + 1))) (x0 : Vec n) (t0 : ℝ) (P0 : Mat n n)
    (hP : P0.PosSemidef) (ins : List (StInp U)) (meas : List (RMeas Ω n))
    (hi : ins = [] ∨ ∃ u ∈ ins, t0 ≤ u.stamp) (hm : meas = [] ∨ ∃ y ∈ meas, t0 ≤ y.stamp) (hR : ∀ y ∈ meas, y.R.PosDef)
    (hw : ∀ i, White (μ[|{ω | K ω = i}]) CovRel.exact
      (⟨n, fun ω => X t0 ω - x0, P0⟩ :: noises (A i) (b i) (Q i) X t0 (immEvents t0 ins meas)))
    (hg : ∀ i, JointlyGaussian (μ[|{ω | K ω = i}])
      (⟨n, fun ω => X t0 ω - x0, P0⟩ :: noises (A i) (b i) (Q i) X t0 (immEvents t0 ins meas))) :
    ∃ rs : List (Ω → Mixture (Vec n) n (M + 1)),
      (∀ ω, runImm (immApi ⟨fun i => linFilter (A i) (b i) (Q i) chi, vecOps n, 1⟩)
        ⟨fun _ => ⟨⟨x0, some t0⟩, P0⟩, fun _ => 1 / (M + 1)⟩ ins (meas.map (·.at ω)) = .ok (rs.map (· ω))) ∧
      rs.length = recorded (immEvents t0 ins meas) ∧
      ∀ (j : ℕ) (r : Ω → Mixture (Vec n) n (M + 1)), rs[j]? = some r → ∃ pre post,
        immEvents t0 ins meas = pre ++ Ev.record :: post ∧ recorded pre = j ∧ ∃ t, MixturePosterior μ K X (fused pre) r t
          {ω | NoReset (atApi (immApi ⟨fun i => linFilter (A i) (b i) (Q i) chi, vecOps n, 1⟩) ω)
            (fun i => linFilter (A i) (b i) (Q i) chi) ω pre ⟨fun _ => ⟨⟨x0, some t0⟩, P0⟩, fun _ => 1 / (M + 1)⟩} := by
  obtain ⟨rs, h2, h3, h4⟩ := bank_run hK A b Q chi X hQ (w := fun _ => 1 / ((M : ℝ) + 1)) (fun _ => by positivity) hprior
    (fun _ => x0) t0 (fun _ => P0) (fun _ => hP) (imm_bank A b Q chi hQ) (immEvents t0 ins meas) (immEvents_forward hR)
    (fun y hy => trivial) hw hg
  refine ⟨rs, fun ω => ?_, h3, h4⟩
  rw [runImm_at _ rfl, C69_run_imm_schedule (atApi (immApi ⟨fun i => linFilter (A i) (b i) (Q i) chi, vecOps n, 1⟩) ω) _ t0 rfl ins meas
    hi hm]
  exact h2 ω

end run

/-! ### A random log with two modes -/

/-- The noise seen along a map of outcomes. -/
def Noise.comp {Ω' : Type} (g : Ω' → Ω) (η : Noise Ω) : Noise Ω' := ⟨η.dim, fun ω => η.val (g ω), η.cov⟩

theorem white_map {Ω' : Type} [MeasurableSpace Ω'] {ρ : Measure Ω'} {g : Ω' → Ω} (hg : MeasurableEmbedding g) {l : List (Noise Ω)}
    (h : White ρ CovRel.exact (l.map (Noise.comp g))) : White (ρ.map g) CovRel.exact l := by
  have hcross : ∀ η ζ : Noise Ω, rvCross (ρ.map g) η.val ζ.val = rvCross ρ (η.comp g).val (ζ.comp g).val := by
    intro η ζ
    ext i j
    exact hg.integral_map _
  refine ⟨fun η hη i => ?_, fun η hη => ?_, fun η hη => ?_, ?_⟩
  · rw [hg.memLp_map_measure_iff]
    exact h.sq _ (List.mem_map_of_mem hη) i
  · have := h.mean _ (List.mem_map_of_mem hη)
    funext i
    exact (hg.integral_map _).trans (congrFun this i)
  · have := h.cov _ (List.mem_map_of_mem hη)
    exact (hcross η η).trans this
  · have := h.uncorr
    rw [List.pairwise_map] at this
    exact this.imp fun {a c} hac => (hcross a c).trans hac

theorem gauss_map {Ω' : Type} [MeasurableSpace Ω'] {ρ : Measure Ω'} {g : Ω' → Ω} (hg : MeasurableEmbedding g) {l : List (Noise Ω)}
    (h : JointlyGaussian ρ (l.map (Noise.comp g))) : JointlyGaussian (ρ.map g) l := by
  intro a ha
  have h1 : (fun ω => a (g ω)) ∈ noiseSpan (l.map (Noise.comp g)) := by
    unfold noiseSpan at ha
    induction ha using Submodule.span_induction with
    | mem a ha =>
      obtain ⟨η, hη, j, rfl⟩ := ha
      exact Submodule.subset_span ⟨η.comp g, List.mem_map_of_mem hη, j, rfl⟩
    | zero => exact Submodule.zero_mem _
    | add a c _ _ ha hc => exact Submodule.add_mem _ ha hc
    | smul k a _ ha => exact Submodule.smul_mem _ k ha
  have h2 := h _ h1
  refine ⟨?_⟩
  rw [AEMeasurable.map_map_of_aemeasurable (hg.aemeasurable_map_iff.mpr h2.aemeasurable) hg.measurable.aemeasurable]
  exact h2.isGaussian_map

/-- The components of a standard normal vector, as noises. -/
def stdNoise {N : ℕ} (i : Fin N) : Noise (Vec N) := ⟨1, fun ω _ => ω i, 1⟩

theorem std_white {N : ℕ} {l : List (Fin N)} (hl : l.Nodup) : White (normal (1 : Mat N N)) CovRel.exact (l.map stdNoise) := by
  have hc : ∀ i j : Fin N, ∫ ω : Vec N, ω i * ω j ∂(normal (1 : Mat N N)) = (1 : Mat N N) i j := fun i j =>
    congrFun (congrFun (normal_moments (PosDef.one (n := Fin N))).2 i) j
  refine ⟨fun η hη => ?_, fun η hη => ?_, fun η hη => ?_, ?_⟩
  · obtain ⟨i, -, rfl⟩ := List.mem_map.mp hη
    exact fun _ => normal_sqInt_id (S := (1 : Mat N N)) (L := 1) (by simp) i
  · obtain ⟨i, -, rfl⟩ := List.mem_map.mp hη
    funext _
    exact congrFun (normal_moments (PosDef.one (n := Fin N))).1 i
  · obtain ⟨i, -, rfl⟩ := List.mem_map.mp hη
    show rvCross (normal (1 : Mat N N)) (fun ω (_ : Fin 1) => ω i) (fun ω (_ : Fin 1) => ω i) = (1 : Mat 1 1)
    ext a c
    rw [Subsingleton.elim c a, one_apply_eq]
    exact (hc i i).trans (one_apply_eq _)
  · rw [List.pairwise_map]
    refine hl.imp fun {i j} hij => ?_
    show rvCross (normal (1 : Mat N N)) (fun ω (_ : Fin 1) => ω i) (fun ω (_ : Fin 1) => ω j) = 0
    ext a c
    exact (hc i j).trans (one_apply_ne hij)

theorem std_gauss {N : ℕ} (l : List (Fin N)) : JointlyGaussian (normal (1 : Mat N N)) (l.map stdNoise) := by
  intro g hg
  have : ∃ ℓ : Vec N →L[ℝ] ℝ, g = fun z => ℓ z := by
    unfold noiseSpan at hg
    induction hg using Submodule.span_induction with
    | mem g hg =>
      obtain ⟨η, hη, j, rfl⟩ := hg
      obtain ⟨i, -, rfl⟩ := List.mem_map.mp hη
      exact ⟨ContinuousLinearMap.proj (R := ℝ) (φ := fun _ : Fin N => ℝ) i, rfl⟩
    | zero => exact ⟨0, rfl⟩
    | add f g _ _ hf hg =>
      obtain ⟨a, rfl⟩ := hf
      obtain ⟨c, rfl⟩ := hg
      exact ⟨a + c, rfl⟩
    | smul k f _ hf =>
      obtain ⟨a, rfl⟩ := hf
      exact ⟨k • a, rfl⟩
  obtain ⟨ℓ, rfl⟩ := this
  exact normal_gauss _ ℓ

/-- A fair coin and five standard normal numbers. -/
noncomputable def duoMeasure : Measure (Fin 2 × Vec 5) := ∑ i, ENNReal.ofReal (1 / 2) • (normal (1 : Mat 5 5)).map (Prod.mk i)

/-- The truth: a Gaussian random walk that moves at the times `1/4`, `1/2` and `1`, from `α` and with the drift `β` that the coin
chooses. -/
noncomputable def duoTruth (α β : Fin 2 → ℝ) (t : ℝ) (ω : Fin 2 × Vec 5) : Vec 1 := fun _ =>
  ω.2 0 + (if 1 / 4 ≤ t then ω.2 1 else 0) + (if 1 / 2 ≤ t then ω.2 2 else 0) + (if 1 ≤ t then ω.2 3 else 0) + α ω.1 + β ω.1 * t

/-- A measurement of it at time `1/4`. -/
noncomputable def duoMeas (α β : Fin 2 → ℝ) : RMeas (Fin 2 × Vec 5) 1 :=
  ⟨1, 1, 1, 1 / 4, fun ω _ => ω.2 0 + ω.2 1 + α ω.1 + β ω.1 * (1 / 4) + ω.2 4⟩

theorem duo_embedding (i : Fin 2) : MeasurableEmbedding (Prod.mk i : Vec 5 → Fin 2 × Vec 5) := MeasurableEmbedding.id.prodMk_left i

theorem duo_mode (i j : Fin 2) (s : Set (Vec 5)) : (Prod.mk j : Vec 5 → Fin 2 × Vec 5) ⁻¹' {ω | ω.1 = i} = if j = i then Set.univ else ∅ := by
  ext v
  by_cases h : j = i <;> simp [h]

theorem duo_apply (S : Set (Fin 2 × Vec 5)) (hS : MeasurableSet S) :
    duoMeasure S = ∑ i, ENNReal.ofReal (1 / 2) * normal (1 : Mat 5 5) (Prod.mk i ⁻¹' S) := by
  unfold duoMeasure
  rw [Measure.finsetSum_apply]
  refine Finset.sum_congr rfl fun i _ => ?_
  rw [Measure.smul_apply, Measure.map_apply (duo_embedding i).measurable hS, smul_eq_mul]

theorem duo_set (i : Fin 2) : MeasurableSet {ω : Fin 2 × Vec 5 | ω.1 = i} := measurable_fst (measurableSet_singleton i)

theorem duo_prior (i : Fin 2) : duoMeasure {ω | ω.1 = i} = ENNReal.ofReal (1 / 2) := by
  rw [duo_apply _ (duo_set i), Finset.sum_eq_single i]
  · rw [duo_mode i i Set.univ, if_pos rfl, measure_univ, mul_one]
  · intro j _ hj
    rw [duo_mode i j Set.univ, if_neg hj, measure_empty, mul_zero]
  · simp

instance : IsProbabilityMeasure duoMeasure := by
  refine ⟨?_⟩
  rw [duo_apply _ MeasurableSet.univ]
  simp only [Set.preimage_univ, measure_univ, mul_one, Fin.sum_univ_two]
  rw [← ENNReal.ofReal_add (by norm_num) (by norm_num)]
  norm_num

theorem duo_cond (i : Fin 2) : duoMeasure[|{ω | ω.1 = i}] = (normal (1 : Mat 5 5)).map (Prod.mk i) := by
  ext S hS
  rw [cond_apply (duo_set i), duo_prior i, duo_apply _ ((duo_set i).inter hS), Finset.sum_eq_single i,
    Measure.map_apply (duo_embedding i).measurable hS, Set.preimage_inter, duo_mode i i Set.univ, if_pos rfl, Set.univ_inter,
    ← mul_assoc, ENNReal.inv_mul_cancel (ENNReal.ofReal_pos.mpr (by norm_num)).ne' ENNReal.ofReal_ne_top, one_mul]
  · intro j _ hj
    rw [Set.preimage_inter, duo_mode i j Set.univ, if_neg hj, Set.empty_inter, measure_empty, mul_zero]
  · simp

theorem duo_retained (α β : Fin 2 → ℝ) :
    retained (StInp.stamp (U := Unit)) 0 [⟨(), 0⟩, ⟨(), 1 / 2⟩, ⟨(), 1⟩] = [⟨(), 0⟩, ⟨(), 1 / 2⟩, ⟨(), 1⟩] ∧
    retained (RMeas.stamp (Ω := Fin 2 × Vec 5) (n := 1)) 0 [duoMeas α β] = [duoMeas α β] := by
  classical
  constructor
  · unfold retained
    rw [sortByStamp_of_sorted _ _ (by simp [TimeSorted]; norm_num), List.filter_eq_self]
    intro x hx
    simp at hx
    rcases hx with rfl | rfl | rfl <;> simp
  · unfold retained
    rw [sortByStamp_of_sorted _ _ (by simp [TimeSorted]), List.filter_eq_self]
    intro x hx
    rw [List.mem_singleton.mp hx]
    simp [duoMeas]

theorem duo_runEvents (α β : Fin 2 → ℝ) : runEvents (U := Unit) 0 [⟨(), 0⟩, ⟨(), 1 / 2⟩, ⟨(), 1⟩] [duoMeas α β]
    = [Ev.correct (duoMeas α β) ⟨(), 0⟩, Ev.record, Ev.predict ⟨(), 0⟩ (1 / 2), Ev.record, Ev.predict ⟨(), 1 / 2⟩ 1] := by
  unfold runEvents
  rw [(duo_retained α β).1, (duo_retained α β).2]
  have h1 : (duoMeas α β).stamp < 1 / 2 := by norm_num [duoMeas]
  have h2 : ¬ (1 / 2 : ℝ) ≤ (duoMeas α β).stamp := by norm_num [duoMeas]
  have h1' : (duoMeas α β).stamp < 2⁻¹ := by norm_num [duoMeas]
  have h2' : ¬ (2⁻¹ : ℝ) ≤ (duoMeas α β).stamp := by norm_num [duoMeas]
  simp [schedule, h1, h2, h1', h2']

theorem duo_immEvents (α β : Fin 2 → ℝ) : immEvents (U := Unit) 0 [⟨(), 0⟩, ⟨(), 1 / 2⟩, ⟨(), 1⟩] [duoMeas α β]
    = [Ev.record, Ev.correct (duoMeas α β) ⟨(), 0⟩, Ev.predict ⟨(), 0⟩ (1 / 2), Ev.record, Ev.predict ⟨(), 1 / 2⟩ 1] := by
  unfold immEvents
  rw [(duo_retained α β).1, (duo_retained α β).2]
  have h1 : (duoMeas α β).stamp < 1 / 2 := by norm_num [duoMeas]
  have h2 : ¬ (1 / 2 : ℝ) ≤ (duoMeas α β).stamp := by norm_num [duoMeas]
  have h1' : (duoMeas α β).stamp < 2⁻¹ := by norm_num [duoMeas]
  have h2' : ¬ (2⁻¹ : ℝ) ≤ (duoMeas α β).stamp := by norm_num [duoMeas]
  simp [immSchedule, h1, h2, h1', h2']

/-- The noises of the log, under the mode `i`. -/
theorem duo_noises (α β : Fin 2 → ℝ) (i : Fin 2) :
    List.map (Noise.comp (Prod.mk i)) ((⟨1, fun ω => duoTruth α β 0 ω - fun _ => α i, 1⟩ : Noise (Fin 2 × Vec 5)) ::
      noises (U := Unit) (fun _ _ => 1) (fun _ dt _ => β i * dt) (fun _ _ => 1) (duoTruth α β) 0
        [Ev.correct (duoMeas α β) ⟨(), 0⟩, Ev.record, Ev.predict ⟨(), 0⟩ (1 / 2), Ev.record, Ev.predict ⟨(), 1 / 2⟩ 1])
      = [0, 1, 4, 2, 3].map stdNoise := by
  have a1 : ¬ (1 / 4 : ℝ) ≤ 0 := by norm_num
  have a2 : ¬ (1 / 2 : ℝ) ≤ 0 := by norm_num
  have a3 : ¬ (1 : ℝ) ≤ 0 := by norm_num
  have a4 : ¬ (1 / 2 : ℝ) ≤ 1 / 4 := by norm_num
  have a5 : ¬ (1 : ℝ) ≤ 1 / 4 := by norm_num
  have a6 : (1 / 4 : ℝ) ≤ 1 / 2 := by norm_num
  have a7 : ¬ (1 : ℝ) ≤ 1 / 2 := by norm_num
  have a8 : (1 / 4 : ℝ) ≤ 1 := by norm_num
  have a9 : (1 / 2 : ℝ) ≤ 1 := by norm_num
  have e0 : Noise.comp (Prod.mk i) (⟨1, fun ω => duoTruth α β 0 ω - fun _ => α i, 1⟩ : Noise (Fin 2 × Vec 5)) = stdNoise (N := 5) 0 := by
    unfold Noise.comp stdNoise
    congr 1
    funext v k
    show duoTruth α β 0 (i, v) k - α i = v 0
    simp only [duoTruth, if_neg a1, if_neg a2, if_neg a3]
    ring
  have ep : ∀ (u : StInp Unit) (τ t : ℝ) (j : Fin 5), (∀ v k, duoTruth α β t (i, v) k - (duoTruth α β τ (i, v) k + β i * (t - τ)) = v j) →
      Noise.comp (Prod.mk i) (procNoise (fun _ _ => 1) (fun _ dt _ => β i * dt) (fun _ _ => 1) (duoTruth α β) u τ t) = stdNoise j := by
    intro u τ t j h
    unfold Noise.comp stdNoise procNoise
    congr 1
    funext v k
    show duoTruth α β t (i, v) k - (((1 : Mat 1 1) *ᵥ duoTruth α β τ (i, v)) k + β i * (t - τ)) = v j
    rw [one_mulVec]
    exact h v k
  have e1 := ep ⟨(), 0⟩ 0 (1 / 4) 1 (fun v k => by
    simp only [duoTruth, if_neg a1, if_neg a2, if_neg a3, if_neg a4, if_neg a5, if_pos (le_refl _)]
    ring)
  have e2 := ep ⟨(), 0⟩ (1 / 4) (1 / 2) 2 (fun v k => by
    simp only [duoTruth, if_neg a4, if_neg a5, if_pos (le_refl _), if_pos a6, if_neg a7]
    ring)
  have e3 := ep ⟨(), 1 / 2⟩ (1 / 2) 1 3 (fun v k => by
    simp only [duoTruth, if_pos (le_refl _), if_pos a6, if_neg a7, if_pos a8, if_pos a9]
    ring)
  have e4 : Noise.comp (Prod.mk i) (measNoise (duoTruth α β) (1 / 4) (duoMeas α β)) = stdNoise (N := 5) 4 := by
    unfold Noise.comp stdNoise measNoise
    show (⟨1, fun v => ((fun _ => v 0 + v 1 + α i + β i * (1 / 4) + v 4) : Vec 1) - (1 : Mat 1 1) *ᵥ duoTruth α β (1 / 4) (i, v), 1⟩ : Noise _) = _
    congr 1
    funext v k
    show (v 0 + v 1 + α i + β i * (1 / 4) + v 4) - ((1 : Mat 1 1) *ᵥ duoTruth α β (1 / 4) (i, v)) k = v 4
    rw [one_mulVec]
    simp only [duoTruth, if_neg a4, if_neg a5, if_pos (le_refl _)]
    ring
  have hlt : (duoMeas α β).stamp - 0 > 1 / 10 ^ 11 := by norm_num [duoMeas]
  simp only [noises]
  rw [if_pos hlt]
  show [_, Noise.comp (Prod.mk i) (procNoise _ _ _ _ _ 0 (1 / 4)), Noise.comp (Prod.mk i) (measNoise (duoTruth α β) (1 / 4) (duoMeas α β)),
    Noise.comp (Prod.mk i) (procNoise _ _ _ _ _ (1 / 4) (1 / 2)), Noise.comp (Prod.mk i) (procNoise _ _ _ _ _ (1 / 2) 1)] = _
  rw [e0, e1, e2, e3, e4]
  rfl

theorem duo_white (α β : Fin 2 → ℝ) (i : Fin 2) : White (duoMeasure[|{ω | ω.1 = i}]) CovRel.exact
    ((⟨1, fun ω => duoTruth α β 0 ω - fun _ => α i, 1⟩ : Noise (Fin 2 × Vec 5)) ::
      noises (U := Unit) (fun _ _ => 1) (fun _ dt _ => β i * dt) (fun _ _ => 1) (duoTruth α β) 0
        [Ev.correct (duoMeas α β) ⟨(), 0⟩, Ev.record, Ev.predict ⟨(), 0⟩ (1 / 2), Ev.record, Ev.predict ⟨(), 1 / 2⟩ 1]) := by
  rw [duo_cond]
  refine white_map (duo_embedding i) ?_
  rw [duo_noises]
  exact std_white (by decide)

theorem duo_gauss (α β : Fin 2 → ℝ) (i : Fin 2) : JointlyGaussian (duoMeasure[|{ω | ω.1 = i}])
    ((⟨1, fun ω => duoTruth α β 0 ω - fun _ => α i, 1⟩ : Noise (Fin 2 × Vec 5)) ::
      noises (U := Unit) (fun _ _ => 1) (fun _ dt _ => β i * dt) (fun _ _ => 1) (duoTruth α β) 0
        [Ev.correct (duoMeas α β) ⟨(), 0⟩, Ev.record, Ev.predict ⟨(), 0⟩ (1 / 2), Ev.record, Ev.predict ⟨(), 1 / 2⟩ 1]) := by
  rw [duo_cond]
  refine gauss_map (duo_embedding i) ?_
  rw [duo_noises]
  exact std_gauss _

/-- C122's hypotheses are met: two hypotheses about where the walk starts. -/
example : ∃ rs : List (Fin 2 × Vec 5 → Mixture (Vec 1) 1 2),
    (∀ ω, runFilter (gsfApi (linFilter (U := Unit) (fun _ _ => 1) (fun _ _ => 0) (fun _ _ => 1) (fun _ => 4)))
      ⟨fun i => ⟨⟨fun _ => if i = 0 then -1 else 1, some 0⟩, 1⟩, fun _ => 1 / 2⟩ [⟨(), 0⟩, ⟨(), 1 / 2⟩, ⟨(), 1⟩]
      ([duoMeas (fun i => if i = 0 then -1 else 1) 0].map (·.at ω)) = .ok (rs.map (· ω))) ∧ rs.length = 2 := by
  have hb : (fun (_ : Inp Unit) (_ : ℝ) => (0 : Vec 1)) = fun _ dt _ => (0 : Fin 2 → ℝ) 0 * dt := by
    funext _ _ _
    simp
  have hev := duo_runEvents (fun i => if i = 0 then -1 else 1) 0
  obtain ⟨rs, h1, h2, -⟩ := C122_gsf (μ := duoMeasure) (K := Prod.fst) measurable_fst (U := Unit) (fun _ _ => 1) (fun _ _ => 0) (fun _ _ => 1)
    (fun _ => 4) (duoTruth (fun i => if i = 0 then -1 else 1) 0) (fun _ _ _ => PosSemidef.one) (w := fun _ => 1 / 2) (fun _ => by norm_num)
    duo_prior (fun i _ => if i = 0 then -1 else 1) 0 (fun _ => 1) (fun _ => PosSemidef.one) [⟨(), 0⟩, ⟨(), 1 / 2⟩, ⟨(), 1⟩]
    [duoMeas (fun i => if i = 0 then -1 else 1) 0] (.inr ⟨_, List.mem_cons_self, le_refl _⟩)
    (.inr ⟨_, List.mem_cons_self, by norm_num [duoMeas]⟩)
    (fun y hy => by rw [List.mem_singleton.mp hy]; exact PosDef.one)
    (fun y hy => by rw [List.mem_singleton.mp hy]; rfl)
    (fun i => by
      rw [hev, hb]
      exact duo_white _ 0 i)
    (fun i => by
      rw [hev, hb]
      exact duo_gauss _ 0 i)
  refine ⟨rs, h1, ?_⟩
  rw [h2, hev]
  rfl

/-- C123's hypotheses are met: two hypotheses about the drift. -/
example : ∃ rs : List (Fin 2 × Vec 5 → Mixture (Vec 1) 1 2),
    (∀ ω, runImm (immApi ⟨fun i : Fin 2 => linFilter (U := Unit) (fun _ _ => 1) (fun _ dt _ => (if i = 0 then 0 else 3) * dt) (fun _ _ => 1)
        (fun _ => 4), vecOps 1, 1⟩)
      ⟨fun _ => ⟨⟨fun _ => 0, some 0⟩, 1⟩, fun _ => 1 / ((1 : ℕ) + 1)⟩ [⟨(), 0⟩, ⟨(), 1 / 2⟩, ⟨(), 1⟩]
      ([duoMeas (fun _ => 0) (fun i => if i = 0 then 0 else 3)].map (·.at ω)) = .ok (rs.map (· ω))) ∧ rs.length = 2 := by
  have hev := duo_immEvents (fun _ => 0) (fun i => if i = 0 then 0 else 3)
  obtain ⟨rs, h1, h2, -⟩ := C123_imm (M := 1) (μ := duoMeasure) (K := Prod.fst) measurable_fst (U := Unit) (fun _ _ _ => 1)
    (fun i _ dt _ => (if i = 0 then 0 else 3) * dt) (fun _ _ _ => 1)
    (fun _ => 4) (duoTruth (fun _ => 0) (fun i => if i = 0 then 0 else 3)) (fun _ _ _ _ => PosSemidef.one)
    (fun i => by
      rw [duo_prior]
      norm_num) (fun _ => 0) 0 1 PosSemidef.one [⟨(), 0⟩, ⟨(), 1 / 2⟩, ⟨(), 1⟩]
    [duoMeas (fun _ => 0) (fun i => if i = 0 then 0 else 3)] (.inr ⟨_, List.mem_cons_self, le_refl _⟩)
    (.inr ⟨_, List.mem_cons_self, by norm_num [duoMeas]⟩)
    (fun y hy => by rw [List.mem_singleton.mp hy]; exact PosDef.one)
    (fun i => by
      rw [hev]
      exact duo_white (fun _ => 0) (fun i => if i = 0 then 0 else 3) i)
    (fun i => by
      rw [hev]
      exact duo_gauss (fun _ => 0) (fun i => if i = 0 then 0 else 3) i)
  refine ⟨rs, h1, ?_⟩
  rw [h2, hev]
  rfl

/-- The weights of that Gaussian sum filter are not reset when, say, no noise occurs. -/
example : NoReset (atApi (gsfApi (linFilter (U := Unit) (fun _ _ => (1 : Mat 1 1)) (fun _ _ => 0) (fun _ _ => 1) (fun _ => 4)))
      ((0, 0) : Fin 2 × Vec 5))
    (fun _ : Fin 2 => linFilter (U := Unit) (fun _ _ => (1 : Mat 1 1)) (fun _ _ => 0) (fun _ _ => 1) (fun _ => 4)) (0, 0)
    [Ev.correct (duoMeas (fun i => if i = 0 then -1 else 1) 0) ⟨(), 0⟩]
    ⟨fun i => ⟨⟨fun _ => if i = 0 then -1 else 1, some 0⟩, 1⟩, fun _ => 1 / 2⟩ := by
  have hQ : ∀ (u : Inp Unit) (dt : ℝ), 0 ≤ dt → (1 : Mat 1 1).PosSemidef := fun _ _ _ => PosSemidef.one
  have hs : (0 : ℝ) ≤ (duoMeas (fun i => if i = 0 then -1 else 1) 0).stamp := by norm_num [duoMeas]
  refine ⟨⟨0, _, _, lin_correctD _ _ _ _ hQ ⟨(), 0⟩ (duoMeas (fun i => if i = 0 then -1 else 1) 0).C
    ((duoMeas (fun i => if i = 0 then -1 else 1) 0).value (0, 0)) _ (PosDef.one) rfl PosSemidef.one hs, ?_⟩, _,
    (gsf_bank (M := 1) _ _ _ _ hQ).correct (0, 0) _ (duoMeas (fun i => if i = 0 then -1 else 1) 0) ⟨(), 0⟩ 0 rfl PosDef.one
      (fun _ => rfl) hs (fun _ => PosSemidef.one) (fun _ => by norm_num), trivial⟩
  have hlt : (duoMeas (fun i => if i = 0 then -1 else 1) 0).stamp - 0 > 1 / 10 ^ 11 := by norm_num [duoMeas]
  have hz : (duoMeas (fun i => if i = 0 then -1 else 1) 0).value (0, 0) - (duoMeas (fun i => if i = 0 then -1 else 1) 0).C *ᵥ
      (fuseAt (U := Unit) (fun _ _ => (1 : Mat 1 1)) (fun _ _ => 0) (fun _ _ => 1) ⟨(), 0⟩ 0 (duoMeas (fun i => if i = 0 then -1 else 1) 0).stamp
        ⟨⟨fun _ => if (0 : Fin 2) = 0 then -1 else 1, some 0⟩, 1⟩).state.value = 0 := by
    unfold fuseAt
    rw [if_pos hlt]
    funext k
    simp [linPred, duoMeas]
    exact sub_self (-1 : ℝ)
  have hS : (duoMeas (fun i => if i = 0 then -1 else 1) 0).C * (fuseAt (U := Unit) (fun _ _ => (1 : Mat 1 1)) (fun _ _ => 0) (fun _ _ => 1) ⟨(), 0⟩ 0
        (duoMeas (fun i => if i = 0 then -1 else 1) 0).stamp
        ⟨⟨fun _ => if (0 : Fin 2) = 0 then -1 else 1, some 0⟩, 1⟩).cov * (duoMeas (fun i => if i = 0 then -1 else 1) 0).Cᵀ
        + (duoMeas (fun i => if i = 0 then -1 else 1) 0).R = (3 : ℝ) • (1 : Mat 1 1) := by
    unfold fuseAt
    rw [if_pos hlt]
    have : (1 : Mat 1 1) * ((1 : Mat 1 1) * (1 : Mat 1 1) * (1 : Mat 1 1)ᵀ + (1 : Mat 1 1)) * (1 : Mat 1 1)ᵀ + (1 : Mat 1 1)
        = (3 : ℝ) • (1 : Mat 1 1) := by
      simp only [one_mul, mul_one, transpose_one]
      ext i j
      simp only [Matrix.add_apply, Matrix.smul_apply, smul_eq_mul]
      ring
    exact this
  show 1 / 10 ^ 8 < 1 / 2 * gaussPdf _ _
  beta_reduce
  rw [hz, hS]
  have hp : 1 / 5 ≤ gaussPdf (0 : Vec 1) ((3 : ℝ) • (1 : Mat 1 1)) := by
    unfold gaussPdf
    rw [zero_dotProduct, mul_zero, Real.exp_zero, det_smul, det_one]
    refine one_div_le_one_div_of_le (by positivity) ?_
    rw [Real.sqrt_le_left (by norm_num)]
    simp
    nlinarith [Real.pi_le_four]
  have hq : 1 / 10 ^ 8 < 1 / 2 * gaussPdf (0 : Vec 1) ((3 : ℝ) • (1 : Mat 1 1)) := by linarith
  exact hq

end Verif
