import Verif.Props.Best
import Verif.Lemmas.GaussSpace

/-!
C117, C118: a linear system with white Gaussian noise. What `run_filter` reports is the posterior distribution of the state given the
data: the error of an estimate is normal with the reported covariance and independent of the data. The NEES has the chi-square
distribution, lies between the bounds of the results with the stated probability, and no function of the data, linear or not, is a
better estimate.
-/

set_option linter.unusedSectionVars false
set_option linter.unusedVariables false

namespace Verif

open Matrix MeasureTheory ProbabilityTheory

variable {Ω : Type} {n : ℕ} {U : Type} [MeasurableSpace Ω] {μ : Measure Ω}

/-! ### Specification -/

/-- The linear combinations of the components of the noises. -/
def noiseSpan (l : List (Noise Ω)) : Submodule ℝ (Ω → ℝ) := Submodule.span ℝ {g | ∃ η ∈ l, ∃ j, g = fun ω => η.val ω j}

/-- The noises are jointly Gaussian: every linear combination of their components is normally distributed. -/
def JointlyGaussian (μ : Measure Ω) (l : List (Noise Ω)) : Prop := ∀ g ∈ noiseSpan l, HasGaussianLaw g μ

/-- All components of the values of the measurements `ys`, as one vector. -/
def dataVec (ys : List (RMeas Ω n)) (ω : Ω) : (Σ k : Fin ys.length, Fin (ys.get k).m) → ℝ := fun p => (ys.get p.1).value ω p.2

/-- The estimate `r` at time `t` with covariance `P` describes the distribution of the state given the measurements `ys`: it is an
affine function of them, and the true state minus the estimate is normal with mean zero and covariance `P` and independent of them. -/
structure Posterior (μ : Measure Ω) (X : ℝ → Ω → Vec n) (ys : List (RMeas Ω n)) (r : Ω → SWC (Vec n) n) (t : ℝ) (P : Mat n n) : Prop where
  honest : Honest μ CovRel.exact X r t P
  affine : AffineIn ys (fun ω => (r ω).state.value)
  meas : AEMeasurable (dataVec ys) μ
  law : μ.map (fun ω => X t ω - (r ω).state.value) = normal P
  indep : IndepFun (fun ω => X t ω - (r ω).state.value) (dataVec ys) μ

/-! ### Spaces of normal numbers -/

/-- The constants and the linear combinations of the noises. -/
def noiseSpace (l : List (Noise Ω)) : Submodule ℝ (Ω → ℝ) := noiseSpan l ⊔ Submodule.span ℝ {fun _ => (1 : ℝ)}

theorem noiseSpace_one (l : List (Noise Ω)) : (fun _ => (1 : ℝ)) ∈ noiseSpace l :=
  (le_sup_right : _ ≤ noiseSpace l) (Submodule.subset_span rfl)

theorem noiseSpace_mem {l : List (Noise Ω)} {η : Noise Ω} (h : η ∈ l) (j : Fin η.dim) : (fun ω => η.val ω j) ∈ noiseSpace l :=
  (le_sup_left : _ ≤ noiseSpace l) (Submodule.subset_span ⟨η, h, j, rfl⟩)

theorem noiseSpace_gauss [IsProbabilityMeasure μ] {l : List (Noise Ω)} (h : JointlyGaussian μ l) :
    ∀ g ∈ noiseSpace l, HasGaussianLaw g μ := by
  intro g hg
  obtain ⟨a, ha, c, hc, rfl⟩ := Submodule.mem_sup.mp hg
  obtain ⟨k, rfl⟩ := Submodule.mem_span_singleton.mp hc
  have hga := h a ha
  have hi := hga.isGaussian_map
  refine ⟨?_⟩
  have e : (a + k • fun _ : Ω => (1 : ℝ)) = (fun x => x + k) ∘ a := by
    funext ω
    simp
  rw [e, ← AEMeasurable.map_map_of_aemeasurable (by fun_prop) hga.aemeasurable]
  infer_instance

theorem dataSpan_mem (ys : List (RMeas Ω n)) (p : Σ k : Fin ys.length, Fin (ys.get k).m) :
    (fun ω => dataVec ys ω p) ∈ dataSpan ys :=
  Submodule.subset_span (.inr ⟨ys.get p.1, List.get_mem _ _, p.2, rfl⟩)

/-! ### Whole runs -/

section run
variable [IsProbabilityMeasure μ]
variable (A : Inp U → ℝ → Mat n n) (b : Inp U → ℝ → Vec n) (Q : Inp U → ℝ → Mat n n) (chi : ℕ → ℝ) (X : ℝ → Ω → Vec n)

/-- C117: with white, jointly Gaussian noise of the modelled covariances, every estimate that `run_filter` reports describes the
distribution of the state at its stamp given the measurements fused before it. -/
theorem C117_posterior (hQ : ∀ u dt, 0 ≤ dt → (Q u dt).PosSemidef) (x0 : Vec n) (t0 : ℝ) (P0 : Mat n n)
    (hP : P0.PosSemidef) (ins : List (StInp U)) (meas : List (RMeas Ω n))
    (hi : ins = [] ∨ ∃ u ∈ ins, t0 ≤ u.stamp) (hm : meas = [] ∨ ∃ y ∈ meas, t0 ≤ y.stamp) (hR : ∀ y ∈ meas, y.R.PosDef)
    (hw : White μ CovRel.exact (⟨n, fun ω => X t0 ω - x0, P0⟩ :: noises A b Q X t0 (runEvents t0 ins meas)))
    (hg : JointlyGaussian μ (⟨n, fun ω => X t0 ω - x0, P0⟩ :: noises A b Q X t0 (runEvents t0 ins meas))) :
    ∃ rs : List (Ω → SWC (Vec n) n),
      (∀ ω, runFilter (ekfApi (linFilter A b Q chi)) ⟨⟨x0, some t0⟩, P0⟩ ins (meas.map (·.at ω)) = .ok (rs.map (· ω))) ∧
      rs.length = recorded (runEvents t0 ins meas) ∧
      ∀ (j : ℕ) (r : Ω → SWC (Vec n) n), rs[j]? = some r → ∃ pre post,
        runEvents t0 ins meas = pre ++ Ev.record :: post ∧ recorded pre = j ∧ ∃ t P, Posterior μ X (fused pre) r t P := by
  have hG := noiseSpace_gauss hg
  have hone : ∀ {m : ℕ} {V : Ω → Vec m} (hV : SqInt μ V), rvMean μ V = 0 →
      Submodule.span ℝ {fun _ => (1 : ℝ)} ≤ orthSub μ V hV := by
    intro m V hV h0
    rw [Submodule.span_le]
    rintro g rfl
    refine ⟨memLp_const _, fun i => ?_⟩
    simp only [mul_one]
    exact congrFun h0 i
  have hcon : ∀ i, (fun _ : Ω => x0 i) ∈ Submodule.span ℝ {fun _ : Ω => (1 : ℝ)} := fun i => by
    have e : (fun _ : Ω => x0 i) = x0 i • fun _ : Ω => (1 : ℝ) := by funext ω; simp
    rw [e]
    exact Submodule.smul_mem _ _ (Submodule.subset_span rfl)
  have hDG : Submodule.span ℝ {fun _ : Ω => (1 : ℝ)}
      ≤ noiseSpace (⟨n, fun ω => X t0 ω - x0, P0⟩ :: noises A b Q X t0 (runEvents t0 ins meas)) := le_sup_right
  obtain ⟨rs, h1, h2, h3⟩ := best_events A b Q chi X _ (noiseSpace_one
      (⟨n, fun ω => X t0 ω - x0, P0⟩ :: noises A b Q X t0 (runEvents t0 ins meas))) hQ (runEvents t0 ins meas)
    (fun ω => ⟨⟨x0, some t0⟩, P0⟩) P0 t0
    (Submodule.span ℝ {fun _ => (1 : ℝ)}) hP (fun _ => rfl) (fun _ => rfl) (runEvents_forward hR) hw
    (Submodule.subset_span rfl) hcon
    (fun η hη => ⟨hw.sq η hη, hone _ (hw.mean η hη)⟩)
    (fun i => by
      have e : (fun ω => X t0 ω i) = (fun ω => (X t0 ω - x0) i) + fun _ => x0 i := by
        funext ω; simp
      rw [e]
      exact Submodule.add_mem _ (noiseSpace_mem (η := ⟨n, fun ω => X t0 ω - x0, P0⟩) (by simp) i) (hDG (hcon i)))
    (fun η hη j => noiseSpace_mem (by simp [hη]) j) hDG
  refine ⟨rs, fun ω => ?_, h2, fun j r hr => ?_⟩
  · rw [run_rand, C21_run_filter_schedule (randApi (linFilter A b Q chi) ω) _ t0 rfl ins meas hi hm]
    exact h1 ω
  · obtain ⟨pre, post, g1, g2, t, P, hp, hX, hD⟩ := h3 j r hr
    rw [allData_eq] at hp hD
    have he : ∀ i, (fun ω => (X t ω - (r ω).state.value) i)
        ∈ noiseSpace (⟨n, fun ω => X t0 ω - x0, P0⟩ :: noises A b Q X t0 (runEvents t0 ins meas)) :=
      fun i => Submodule.sub_mem _ (hX i) (hD (hp.mem i))
    refine ⟨pre, post, g1, g2, t, P, hp.honest, hp.mem,
      aemeasurable_pi_lambda _ fun p => (hG _ (hD (dataSpan_mem _ p))).aemeasurable, gauss_law hG he hp.honest.mean hp.honest.error, ?_⟩
    exact gauss_indep hG (Z := fun i ω => (X t ω - (r ω).state.value) i) (W := fun p ω => dataVec (fused pre) ω p) he
      (fun p => hD (dataSpan_mem _ p)) (fun i => congrFun hp.honest.mean i) (fun i p => (hp.orth (dataSpan_mem _ p)).2 i)

end run

/-! ### The normalised error -/

/-- C117: the NEES that `GaussianResult` computes for a reported estimate has the chi-square distribution with `n` degrees of freedom. -/
theorem C117_nees {X : ℝ → Ω → Vec n} {ys : List (RMeas Ω n)} {r : Ω → SWC (Vec n) n} {t : ℝ} {P : Mat n n}
    (h : Posterior μ X ys r t P) (hP : P.PosDef) (hn : 0 < n) :
    ∃ g : Ω → GResult (Vec n) n,
      (∀ ω, gaussianResult (vecStateOps n) (r ω).state (r ω).cov (X t ω) = .ok (g ω)) ∧ μ.map (fun ω => (g ω).nees) = chi2 n := by
  have hg : ∀ ω, ∃ g, gaussianResult (vecStateOps n) (r ω).state (r ω).cov (X t ω) = .ok g ∧
      g.nees = (X t ω - (r ω).state.value) ⬝ᵥ P⁻¹ *ᵥ (X t ω - (r ω).state.value) := by
    intro ω
    obtain ⟨g, h1, -, -, h4, -, h6, -⟩ := C54_result (vecStateOps n) (r ω).state P (X t ω) hP hn
    refine ⟨g, by rw [h.honest.cov ω]; exact h1, ?_⟩
    rw [h6, h4]
    rfl
  choose g h1 h2 using hg
  refine ⟨g, h1, ?_⟩
  rw [show (fun ω => (g ω).nees) = fun ω => (X t ω - (r ω).state.value) ⬝ᵥ P⁻¹ *ᵥ (X t ω - (r ω).state.value) from funext h2]
  exact quad_chi2 hP h.law

theorem aemeasurable_of_law {Y : Ω → ℝ} {k : ℕ} (h : μ.map Y = chi2 k) : AEMeasurable Y μ := by
  by_contra h'
  rw [Measure.map_of_not_aemeasurable h'] at h
  exact IsProbabilityMeasure.ne_zero (chi2 k) h.symm

theorem law_apply {Y : Ω → ℝ} {k : ℕ} (h : μ.map Y = chi2 k) {s : Set ℝ} (hs : MeasurableSet s) : μ {ω | Y ω ∈ s} = chi2 k s := by
  rw [← h, Measure.map_apply_of_aemeasurable (aemeasurable_of_law h) hs]
  rfl

/-- C117: the NEES lies between `nees_lower_bound(c)` and `nees_upper_bound(c)` with probability `c`, and below
`nees_upper_bound(c, double_sided=False)` with probability `c`. -/
theorem C117_bounds {X : ℝ → Ω → Vec n} {ys : List (RMeas Ω n)} {r : Ω → SWC (Vec n) n} {t : ℝ} {P : Mat n n}
    (h : Posterior μ X ys r t P) (hP : P.PosDef) (hn : 0 < n) {ppf : ℝ → ℝ → ℝ} (hq : IsPpf ppf) {c : ℝ} (h0 : 0 < c) (h1 : c < 1) :
    ∃ (g : Ω → GResult (Vec n) n) (lo hi one : ℝ),
      (∀ ω, gaussianResult (vecStateOps n) (r ω).state (r ω).cov (X t ω) = .ok (g ω)) ∧
      neesLowerBound ppf 1 [(n : ℝ)] c = .ok [lo] ∧ neesUpperBound ppf 1 [(n : ℝ)] c true = .ok [hi] ∧
      neesUpperBound ppf 1 [(n : ℝ)] c false = .ok [one] ∧
      μ {ω | lo ≤ (g ω).nees ∧ (g ω).nees ≤ hi} = ENNReal.ofReal c ∧ μ {ω | (g ω).nees ≤ one} = ENNReal.ofReal c := by
  obtain ⟨g, g1, g2⟩ := C117_nees h hP hn
  have hno : ¬ (c ≥ 1 ∨ c ≤ 0) := by
    rintro (h | h) <;> linarith
  refine ⟨g, ppf ((1 - c) / 2) n, ppf ((1 - c) / 2 + c) n, ppf c n, g1, ?_, ?_, ?_, ?_, ?_⟩
  · unfold neesLowerBound
    rw [if_neg hno]
    simp
  · unfold neesUpperBound
    rw [if_neg hno]
    simp [add_comm]
  · unfold neesUpperBound
    rw [if_neg hno]
    simp
  · exact (law_apply g2 measurableSet_Icc).trans (chi2_mid hq hn (by linarith) h0 (by linarith))
  · exact (law_apply g2 measurableSet_Iic).trans (hq n c hn h0 h1)

/-! ### Optimality among all functions of the data -/

/-- An affine function of the data is a measurable function of the data. -/
theorem affine_measurable {ys : List (RMeas Ω n)} {m : ℕ} {Z : Ω → Vec m} (h : AffineIn ys Z) :
    ∃ φ : ((Σ k : Fin ys.length, Fin (ys.get k).m) → ℝ) → Vec m, Measurable φ ∧ ∀ ω, Z ω = φ (dataVec ys ω) := by
  have h1 : ∀ g ∈ dataSpan ys, ∃ φ : ((Σ k : Fin ys.length, Fin (ys.get k).m) → ℝ) → ℝ, Measurable φ ∧ ∀ ω, g ω = φ (dataVec ys ω) := by
    intro g hg
    unfold dataSpan at hg
    induction hg using Submodule.span_induction with
    | mem g hg =>
      rcases hg with rfl | ⟨y, hy, j, rfl⟩
      · exact ⟨fun _ => 1, measurable_const, fun _ => rfl⟩
      · obtain ⟨k, rfl⟩ := List.get_of_mem hy
        exact ⟨fun v => v ⟨k, j⟩, measurable_pi_apply _, fun _ => rfl⟩
    | zero => exact ⟨fun _ => 0, measurable_const, fun _ => rfl⟩
    | add f g _ _ hf hg =>
      obtain ⟨φ, a1, a2⟩ := hf
      obtain ⟨ψ, b1, b2⟩ := hg
      exact ⟨fun v => φ v + ψ v, a1.add b1, fun ω => by simp [a2, b2]⟩
    | smul k f _ hf =>
      obtain ⟨φ, a1, a2⟩ := hf
      exact ⟨fun v => k * φ v, a1.const_mul k, fun ω => by simp [a2]⟩
  choose φ h2 h3 using fun i => h1 _ (h i)
  exact ⟨fun v i => φ i v, measurable_pi_lambda _ fun i => h2 i, fun ω => funext fun i => h3 i ω⟩

/-- C118: no function `φ` of the data at all, linear or not, is a better estimate: its error covariance is at least the reported one,
and so is its mean square error. -/
theorem C118_best {X : ℝ → Ω → Vec n} [IsProbabilityMeasure μ] {ys : List (RMeas Ω n)} {r : Ω → SWC (Vec n) n} {t : ℝ} {P : Mat n n}
    (h : Posterior μ X ys r t P) {φ : ((Σ k : Fin ys.length, Fin (ys.get k).m) → ℝ) → Vec n} (hφ : Measurable φ)
    (hs : SqInt μ (fun ω => X t ω - φ (dataVec ys ω))) :
    (rvCross μ (fun ω => X t ω - φ (dataVec ys ω)) (fun ω => X t ω - φ (dataVec ys ω)) - P).PosSemidef ∧
    ∫ ω, (X t ω - (r ω).state.value) ⬝ᵥ (X t ω - (r ω).state.value) ∂μ
      ≤ ∫ ω, (X t ω - φ (dataVec ys ω)) ⬝ᵥ (X t ω - φ (dataVec ys ω)) ∂μ := by
  obtain ⟨ψ, p1, p2⟩ := affine_measurable h.affine
  have s1 := h.honest.sq
  have e0 : (fun ω => (r ω).state.value - φ (dataVec ys ω))
      = fun ω => (X t ω - φ (dataVec ys ω)) - (X t ω - (r ω).state.value) := by
    funext ω; abel
  have s2 : SqInt μ (fun ω => (r ω).state.value - φ (dataVec ys ω)) := by rw [e0]; exact hs.sub s1
  have c0 : rvCross μ (fun ω => X t ω - (r ω).state.value) (fun ω => (r ω).state.value - φ (dataVec ys ω)) = 0 := by
    ext i j
    have h1 : IndepFun (fun ω => (X t ω - (r ω).state.value) i) (fun ω => ((r ω).state.value - φ (dataVec ys ω)) j) μ := by
      have := h.indep.comp (measurable_pi_apply i) (((measurable_pi_apply j).comp p1).sub ((measurable_pi_apply j).comp hφ))
      refine this.congr (by rfl) (Filter.EventuallyEq.of_eq ?_)
      funext ω
      show ψ (dataVec ys ω) j - φ (dataVec ys ω) j = ((r ω).state.value - φ (dataVec ys ω)) j
      rw [p2]
      rfl
    have h2 := h1.integral_fun_mul_eq_mul_integral (s1 i).aestronglyMeasurable (s2 j).aestronglyMeasurable
    refine h2.trans ?_
    rw [show ∫ ω, (X t ω - (r ω).state.value) i ∂μ = 0 from congrFun h.honest.mean i, zero_mul]
    rfl
  have e : (fun ω => X t ω - φ (dataVec ys ω))
      = fun ω => (1 : Mat n n) *ᵥ (X t ω - (r ω).state.value) + (1 : Mat n n) *ᵥ ((r ω).state.value - φ (dataVec ys ω)) := by
    funext ω
    rw [one_mulVec, one_mulVec]
    abel
  have hle : (rvCross μ (fun ω => X t ω - φ (dataVec ys ω)) (fun ω => X t ω - φ (dataVec ys ω)) - P).PosSemidef := by
    rw [e, rvCross_comb s1 s2 c0, show rvCross μ (fun ω => X t ω - (r ω).state.value) (fun ω => X t ω - (r ω).state.value) = P from
      h.honest.error]
    simp only [transpose_one, Matrix.one_mul, Matrix.mul_one, add_sub_cancel_left]
    exact rvCross_psd s2
  exact ⟨hle, C106_mse X h.honest hs hle⟩

/-- C118: the distribution of the state given the data is the normal distribution around the estimate with the reported covariance:
for every set `S` of data and every set `B` of states, the probability that the data are in `S` and the state in `B` is the mean, over
the outcomes with data in `S`, of the probability that this normal distribution gives to `B`. -/
theorem C118_posterior {X : ℝ → Ω → Vec n} [IsProbabilityMeasure μ] {ys : List (RMeas Ω n)} {r : Ω → SWC (Vec n) n} {t : ℝ} {P : Mat n n}
    (h : Posterior μ X ys r t P) {S : Set ((Σ k : Fin ys.length, Fin (ys.get k).m) → ℝ)}
    (hS : MeasurableSet S) {B : Set (Vec n)} (hB : MeasurableSet B) :
    μ {ω | dataVec ys ω ∈ S ∧ X t ω ∈ B} = ∫⁻ ω in dataVec ys ⁻¹' S, normal P {e | (r ω).state.value + e ∈ B} ∂μ := by
  obtain ⟨ψ, p1, p2⟩ := affine_measurable h.affine
  have he : AEMeasurable (fun ω => X t ω - (r ω).state.value) μ := by
    by_contra h'
    have := h.law
    rw [Measure.map_of_not_aemeasurable h'] at this
    exact IsProbabilityMeasure.ne_zero (normal P) this.symm
  have hd := h.meas
  have hj := (indepFun_iff_map_prod_eq_prod_map_map he hd).mp h.indep
  rw [h.law] at hj
  have hT : MeasurableSet {p : Vec n × ((Σ k : Fin ys.length, Fin (ys.get k).m) → ℝ) | p.2 ∈ S ∧ ψ p.2 + p.1 ∈ B} := by
    have h1 : Measurable fun p : Vec n × ((Σ k : Fin ys.length, Fin (ys.get k).m) → ℝ) => ψ p.2 + p.1 :=
      (p1.comp measurable_snd).add measurable_fst
    exact (measurable_snd hS).inter (h1 hB)
  have e1 : {ω | dataVec ys ω ∈ S ∧ X t ω ∈ B} = (fun ω => ((X t ω - (r ω).state.value), dataVec ys ω)) ⁻¹'
      {p : Vec n × ((Σ k : Fin ys.length, Fin (ys.get k).m) → ℝ) | p.2 ∈ S ∧ ψ p.2 + p.1 ∈ B} := by
    ext ω
    show _ ↔ dataVec ys ω ∈ S ∧ ψ (dataVec ys ω) + (X t ω - (r ω).state.value) ∈ B
    rw [← p2, add_sub_cancel]
    rfl
  rw [e1, ← Measure.map_apply_of_aemeasurable (he.prodMk hd) hT, hj, Measure.prod_apply_symm hT]
  have e2 : ∀ d, (normal P) ((fun e => (e, d)) ⁻¹' {p : Vec n × ((Σ k : Fin ys.length, Fin (ys.get k).m) → ℝ) | p.2 ∈ S ∧ ψ p.2 + p.1 ∈ B})
      = S.indicator (fun d => normal P {e | ψ d + e ∈ B}) d := by
    intro d
    by_cases hdS : d ∈ S
    · rw [Set.indicator_of_mem hdS]
      congr 1
      ext e
      exact ⟨fun h => h.2, fun h => ⟨hdS, h⟩⟩
    · rw [Set.indicator_of_notMem hdS]
      convert measure_empty (μ := normal P)
      ext e
      exact ⟨fun h => hdS h.1, fun h => h.elim⟩
  have hmeas : Measurable fun d => normal P {e | ψ d + e ∈ B} := by
    have h1 : MeasurableSet {p : ((Σ k : Fin ys.length, Fin (ys.get k).m) → ℝ) × Vec n | ψ p.1 + p.2 ∈ B} :=
      ((p1.comp measurable_fst).add measurable_snd) hB
    exact measurable_measure_prodMk_left h1
  simp only [e2]
  rw [lintegral_indicator hS, Measure.restrict_map_of_aemeasurable hd hS, lintegral_map' hmeas.aemeasurable hd.restrict]
  simp only [← p2]

/-! ### A random log -/

/-- The truth: a Gaussian random walk on the line that moves at the times `1/2` and `1`; the outcomes are the four noises. -/
noncomputable def walkTruth (t : ℝ) (ω : Vec 4) : Vec 1 := fun _ =>
  ω 0 + (if 1 / 2 ≤ t then ω 1 else 0) + (if 1 ≤ t then ω 2 else 0)

/-- A measurement of it at time `1/2`. -/
noncomputable def walkMeas : RMeas (Vec 4) 1 :=
  ⟨1, 1, 1, 1 / 2, fun ω _ => ω 0 + ω 1 + ω 3⟩

theorem walk_events : runEvents (U := Unit) 0 [⟨(), 0⟩, ⟨(), 1⟩] [walkMeas]
    = [Ev.correct walkMeas ⟨(), 0⟩, Ev.record, Ev.predict ⟨(), 0⟩ 1] := by
  classical
  have e1 : retained (StInp.stamp (U := Unit)) 0 [⟨(), 0⟩, ⟨(), 1⟩] = [⟨(), 0⟩, ⟨(), 1⟩] := by
    unfold retained
    rw [sortByStamp_of_sorted _ _ (by simp [TimeSorted]), List.filter_eq_self]
    intro x hx
    simp at hx
    rcases hx with rfl | rfl <;> simp
  have e2 : retained (RMeas.stamp (Ω := Vec 4) (n := 1)) 0 [walkMeas] = [walkMeas] := by
    unfold retained
    rw [sortByStamp_of_sorted _ _ (by simp [TimeSorted]), List.filter_eq_self]
    intro x hx
    rw [List.mem_singleton.mp hx]
    simp [walkMeas]
  unfold runEvents
  rw [e1, e2]
  have h1 : walkMeas.stamp < 1 := by norm_num [walkMeas]
  simp [schedule, h1]

/-- The noises of the log. -/
noncomputable def walkNoises : List (Noise (Vec 4)) := ⟨1, fun ω => walkTruth 0 ω - 0, 1⟩ ::
    noises (U := Unit) (fun _ _ => 1) (fun _ _ => 0) (fun _ _ => 1) walkTruth 0 (runEvents 0 [⟨(), 0⟩, ⟨(), 1⟩] [walkMeas])

theorem walkNoises_eq : walkNoises = [⟨1, fun ω _ => ω 0, 1⟩, ⟨1, fun ω _ => ω 1, 1⟩, ⟨1, fun ω _ => ω 3, 1⟩, ⟨1, fun ω _ => ω 2, 1⟩] := by
  unfold walkNoises
  have e0 : (fun ω => walkTruth 0 ω - 0) = fun ω (_ : Fin 1) => ω 0 := by
    funext ω i
    have h1 : ¬ (1 / 2 : ℝ) ≤ 0 := by norm_num
    have h2 : ¬ (1 : ℝ) ≤ 0 := by norm_num
    simp only [walkTruth, if_neg h1, if_neg h2, sub_zero, add_zero]
  have e1 : procNoise (fun _ _ => 1) (fun _ _ => 0) (fun _ _ => 1) walkTruth (⟨(), 0⟩ : StInp Unit) 0 (1 / 2)
      = ⟨1, fun ω _ => ω 1, 1⟩ := by
    unfold procNoise
    congr 1
    funext ω i
    have h1 : ¬ (1 / 2 : ℝ) ≤ 0 := by norm_num
    have h2 : ¬ (1 : ℝ) ≤ 0 := by norm_num
    have h3 : ¬ (1 : ℝ) ≤ 1 / 2 := by norm_num
    show (ω 0 + (if (1 / 2 : ℝ) ≤ 1 / 2 then ω 1 else 0) + (if (1 : ℝ) ≤ 1 / 2 then ω 2 else 0))
      - (((1 : Mat 1 1) *ᵥ walkTruth 0 ω) i + 0) = _
    rw [one_mulVec]
    simp only [walkTruth, if_neg h1, if_neg h2, if_neg h3, if_pos (le_refl _)]
    ring
  have e2 : procNoise (fun _ _ => 1) (fun _ _ => 0) (fun _ _ => 1) walkTruth (⟨(), 0⟩ : StInp Unit) (1 / 2) 1
      = ⟨1, fun ω _ => ω 2, 1⟩ := by
    unfold procNoise
    congr 1
    funext ω i
    have h1 : (1 / 2 : ℝ) ≤ 1 := by norm_num
    have h3 : ¬ (1 : ℝ) ≤ 1 / 2 := by norm_num
    show (ω 0 + (if (1 / 2 : ℝ) ≤ 1 then ω 1 else 0) + (if (1 : ℝ) ≤ 1 then ω 2 else 0))
      - (((1 : Mat 1 1) *ᵥ walkTruth (1 / 2) ω) i + 0) = _
    rw [one_mulVec]
    simp only [walkTruth, if_pos h1, if_neg h3, if_pos (le_refl _)]
    ring
  have e3 : measNoise walkTruth (1 / 2) walkMeas = ⟨1, fun ω _ => ω 3, 1⟩ := by
    unfold measNoise
    show (⟨1, fun ω => ((fun _ => ω 0 + ω 1 + ω 3) : Vec 1) - (1 : Mat 1 1) *ᵥ walkTruth (1 / 2) ω, 1⟩ : Noise _) = _
    congr 1
    funext ω i
    have h3 : ¬ (1 : ℝ) ≤ 1 / 2 := by norm_num
    show (ω 0 + ω 1 + ω 3) - ((1 : Mat 1 1) *ᵥ walkTruth (1 / 2) ω) i = _
    rw [one_mulVec]
    simp only [walkTruth, if_neg h3, if_pos (le_refl _)]
    ring
  rw [walk_events]
  have hlt : walkMeas.stamp - 0 > 1 / 10 ^ 11 := by norm_num [walkMeas]
  have e4 : noises (U := Unit) (fun _ _ => 1) (fun _ _ => 0) (fun _ _ => 1) walkTruth 0
      [Ev.correct walkMeas ⟨(), 0⟩, Ev.record, Ev.predict ⟨(), 0⟩ 1]
      = [⟨1, fun ω _ => ω 1, 1⟩, ⟨1, fun ω _ => ω 3, 1⟩, ⟨1, fun ω _ => ω 2, 1⟩] := by
    simp only [noises]
    rw [if_pos hlt]
    show [procNoise _ _ _ _ _ 0 (1 / 2), measNoise walkTruth (1 / 2) walkMeas, procNoise _ _ _ _ _ (1 / 2) 1] = _
    rw [e1, e2, e3]
  rw [e4, e0]

theorem walk_sq (i : Fin 4) : MemLp (fun ω : Vec 4 => ω i) 2 (normal (1 : Mat 4 4)) :=
  normal_sqInt_id (S := (1 : Mat 4 4)) (L := 1) (by simp) i

theorem walk_mean (i : Fin 4) : ∫ ω : Vec 4, ω i ∂(normal (1 : Mat 4 4)) = 0 := congrFun (normal_moments (PosDef.one (n := Fin 4))).1 i

theorem walk_cov (i j : Fin 4) : ∫ ω : Vec 4, ω i * ω j ∂(normal (1 : Mat 4 4)) = (1 : Mat 4 4) i j :=
  congrFun (congrFun (normal_moments (PosDef.one (n := Fin 4))).2 i) j

theorem walk_white : White (normal (1 : Mat 4 4)) CovRel.exact walkNoises := by
  rw [walkNoises_eq]
  refine ⟨?_, ?_, ?_, ?_⟩
  · intro η hη
    simp only [List.mem_cons, List.not_mem_nil, or_false] at hη
    rcases hη with rfl | rfl | rfl | rfl <;> exact fun i => walk_sq _
  · intro η hη
    simp only [List.mem_cons, List.not_mem_nil, or_false] at hη
    rcases hη with rfl | rfl | rfl | rfl <;> funext i <;> exact walk_mean _
  · intro η hη
    simp only [List.mem_cons, List.not_mem_nil, or_false] at hη
    rcases hη with rfl | rfl | rfl | rfl <;> show rvCross (normal (1 : Mat 4 4)) _ _ = (1 : Mat 1 1) <;> ext i j <;>
      rw [Subsingleton.elim j i, one_apply_eq] <;> exact (walk_cov _ _).trans (one_apply_eq _)
  · simp only [List.pairwise_cons, List.mem_cons, List.not_mem_nil, or_false, forall_eq_or_imp, forall_eq, List.Pairwise.nil,
      and_true, IsEmpty.forall_iff, implies_true]
    refine ⟨⟨?_, ?_, ?_⟩, ⟨?_, ?_⟩, ?_⟩ <;> ext i j <;> exact (walk_cov _ _).trans (one_apply_ne (by decide))

theorem normal_gauss {N : ℕ} (S : Mat N N) (ℓ : Vec N →L[ℝ] ℝ) : HasGaussianLaw (fun z => ℓ z) (normal S) := by
  refine ⟨?_⟩
  unfold normal
  rw [Measure.map_map (by fun_prop) (by fun_prop)]
  exact isGaussian_map (L := ℓ.comp (PiLp.continuousLinearEquiv 2 ℝ fun _ : Fin N => ℝ).toContinuousLinearMap)

theorem walk_gauss : JointlyGaussian (normal (1 : Mat 4 4)) walkNoises := by
  intro g hg
  have : ∃ ℓ : Vec 4 →L[ℝ] ℝ, g = fun z => ℓ z := by
    rw [walkNoises_eq] at hg
    unfold noiseSpan at hg
    induction hg using Submodule.span_induction with
    | mem g hg =>
      obtain ⟨η, hη, j, rfl⟩ := hg
      simp only [List.mem_cons, List.not_mem_nil, or_false] at hη
      rcases hη with rfl | rfl | rfl | rfl
      · exact ⟨ContinuousLinearMap.proj 0, rfl⟩
      · exact ⟨ContinuousLinearMap.proj 1, rfl⟩
      · exact ⟨ContinuousLinearMap.proj 3, rfl⟩
      · exact ⟨ContinuousLinearMap.proj 2, rfl⟩
    | zero => exact ⟨0, rfl⟩
    | add f g _ _ hf hg =>
      obtain ⟨a, rfl⟩ := hf
      obtain ⟨b, rfl⟩ := hg
      exact ⟨a + b, rfl⟩
    | smul k f _ hf =>
      obtain ⟨a, rfl⟩ := hf
      exact ⟨k • a, rfl⟩
  obtain ⟨ℓ, rfl⟩ := this
  exact normal_gauss _ ℓ

/-- The hypotheses of C117 hold for it; the covariance of the one estimate is invertible. -/
theorem walk_run : ∃ r : Vec 4 → SWC (Vec 1) 1,
    (∀ ω, runFilter (ekfApi (linFilter (U := Unit) (fun _ _ => 1) (fun _ _ => 0) (fun _ _ => 1) (fun _ => 0))) ⟨⟨0, some 0⟩, 1⟩
      [⟨(), 0⟩, ⟨(), 1⟩] ([walkMeas].map (·.at ω)) = .ok [r ω]) ∧
    ∃ P, Posterior (normal (1 : Mat 4 4)) walkTruth [walkMeas] r (1 / 2) P ∧ P.PosDef := by
  obtain ⟨rs, h1, h2, h3⟩ := C117_posterior (U := Unit) (μ := normal (1 : Mat 4 4)) (fun _ _ => 1) (fun _ _ => 0) (fun _ _ => 1) (fun _ => 0)
    walkTruth (fun _ _ _ => PosSemidef.one) (fun _ => 0) 0 1 PosSemidef.one [⟨(), 0⟩, ⟨(), 1⟩] [walkMeas]
    (.inr ⟨⟨(), 0⟩, by simp, le_refl _⟩) (.inr ⟨walkMeas, by simp, by norm_num [walkMeas]⟩)
    (fun y hy => by rw [List.mem_singleton.mp hy]; exact PosDef.one) walk_white walk_gauss
  rw [walk_events] at h2 h3
  obtain ⟨r, rfl⟩ := List.length_eq_one_iff.mp h2
  obtain ⟨pre, post, g1, g2, t, P, hp⟩ := h3 0 r rfl
  have h0 := h1 0
  rw [run_rand, C21_run_filter_schedule (randApi _ (0 : Vec 4)) ⟨⟨fun _ => 0, some 0⟩, 1⟩ 0 rfl _ _ (.inr ⟨⟨(), 0⟩, by simp, le_refl _⟩)
    (.inr ⟨walkMeas, by simp, (by norm_num : (0 : ℝ) ≤ 1 / 2)⟩)] at h0
  have ev : runEvents (U := Unit) 0 [⟨(), 0⟩, ⟨(), 1⟩] [walkMeas] = _ := walk_events
  unfold runEvents at ev
  have h0' : exec (randApi (linFilter (U := Unit) (fun _ _ => (1 : Mat 1 1)) (fun _ _ => 0) (fun _ _ => 1) (fun _ => 0)) (0 : Vec 4))
      [Ev.correct walkMeas ⟨(), 0⟩, Ev.record, Ev.predict ⟨(), 0⟩ 1] ⟨⟨fun _ => 0, some 0⟩, 1⟩ = .ok [r 0] := by
    rw [← ev]
    exact h0
  unfold exec at h0'
  have hst := psd_step_later (U := Unit) (fun _ _ => (1 : Mat 1 1)) (fun _ _ => 0) (fun _ _ => 1) (fun _ => 0) (x := ⟨⟨fun _ => 0, some 0⟩, 1⟩) (τ := 0)
    ⟨(), 0⟩ walkMeas 0 PosDef.one rfl PosSemidef.one PosSemidef.one (by norm_num [walkMeas])
  rw [show (randApi (linFilter (U := Unit) (fun _ _ => (1 : Mat 1 1)) (fun _ _ => 0) (fun _ _ => 1) (fun _ => 0)) (0 : Vec 4)).correct
    ⟨⟨fun _ => 0, some 0⟩, 1⟩ walkMeas ⟨(), 0⟩ = _ from hst] at h0'
  obtain ⟨l, h5, h6⟩ : ∃ l, exec (randApi (linFilter (U := Unit) (fun _ _ => (1 : Mat 1 1)) (fun _ _ => 0) (fun _ _ => 1) (fun _ => 0)) (0 : Vec 4))
      [Ev.predict ⟨(), 0⟩ 1] (linPost walkMeas.C walkMeas.R (walkMeas.value 0) walkMeas.stamp (linPred (U := Unit) (fun _ _ => (1 : Mat 1 1))
        (fun _ _ => 0) (fun _ _ => 1) ⟨(), some 0⟩ 0 walkMeas.stamp ⟨⟨fun _ => 0, some 0⟩, 1⟩)) = .ok l ∧
      (linPost walkMeas.C walkMeas.R (walkMeas.value 0) walkMeas.stamp (linPred (U := Unit) (fun _ _ => (1 : Mat 1 1))
        (fun _ _ => 0) (fun _ _ => 1) ⟨(), some 0⟩ 0 walkMeas.stamp ⟨⟨fun _ => 0, some 0⟩, 1⟩)) :: l = [r 0] := by
    generalize hq : exec (randApi (linFilter (U := Unit) (fun _ _ => (1 : Mat 1 1)) (fun _ _ => 0) (fun _ _ => 1) (fun _ => 0)) (0 : Vec 4))
      [Ev.predict ⟨(), 0⟩ 1] (linPost walkMeas.C walkMeas.R (walkMeas.value 0) walkMeas.stamp (linPred (U := Unit) (fun _ _ => (1 : Mat 1 1))
        (fun _ _ => 0) (fun _ _ => 1) ⟨(), some 0⟩ 0 walkMeas.stamp ⟨⟨fun _ => 0, some 0⟩, 1⟩)) = q at h0'
    change (exec (randApi (linFilter (U := Unit) (fun _ _ => (1 : Mat 1 1)) (fun _ _ => 0) (fun _ _ => 1) (fun _ => 0)) (0 : Vec 4))
      [Ev.record, Ev.predict ⟨(), 0⟩ 1] _) = _ at h0'
    unfold exec at h0'
    rw [hq] at h0'
    cases q with
    | error e => cases h0'
    | ok l => exact ⟨l, rfl, Except.ok.inj h0'⟩
  have h7 := (List.cons.inj h6).1
  have ht : t = 1 / 2 := by
    have := hp.honest.stamp 0
    rw [← h7] at this
    exact (Option.some.inj this).symm
  have hPd : P.PosDef := by
    have := hp.honest.cov 0
    rw [← h7] at this
    rw [← this]
    show (kCov ((1 : Mat 1 1) * 1 * 1ᵀ + 1) (1 : Mat 1 1) (1 : Mat 1 1)).PosDef
    have h2 : ((1 : Mat 1 1) * 1 * 1ᵀ + 1).PosDef := by
      rw [Matrix.mul_one, transpose_one, Matrix.mul_one]
      exact PosDef.one.add PosDef.one
    rw [kCov_info h2 _ PosDef.one]
    refine PosDef.inv (h2.inv.add_posSemidef ?_)
    simp only [transpose_one, inv_one, Matrix.mul_one]
    exact PosSemidef.one
  subst ht
  refine ⟨r, h1, P, ?_, hPd⟩
  have e : pre = [Ev.correct walkMeas ⟨(), 0⟩] := by
    match pre, g1 with
    | [], g1 => cases g1
    | [a], g1 => cases g1; rfl
    | [a, b], g1 => cases g1
    | a :: b :: c :: l, g1 =>
      have := congrArg List.length g1
      simp at this
  rw [e] at hp
  exact hp


/-- The hypotheses of the theorems about a single estimate hold for it: its NEES is within the 95% bounds with probability 0.95. -/
example : ∃ r : Vec 4 → SWC (Vec 1) 1, ∃ g : Vec 4 → GResult (Vec 1) 1, ∃ ppf lo hi,
    (∀ ω, gaussianResult (vecStateOps 1) (r ω).state (r ω).cov (walkTruth (1 / 2) ω) = .ok (g ω)) ∧
    neesLowerBound ppf 1 [((1 : ℕ) : ℝ)] (95 / 100) = .ok [lo] ∧ neesUpperBound ppf 1 [((1 : ℕ) : ℝ)] (95 / 100) true = .ok [hi] ∧
    normal (1 : Mat 4 4) {ω | lo ≤ (g ω).nees ∧ (g ω).nees ≤ hi} = ENNReal.ofReal (95 / 100) := by
  obtain ⟨ppf, hq⟩ := exists_ppf
  obtain ⟨r, -, P, h, hP⟩ := walk_run
  obtain ⟨g, lo, hi, one, h1, h2, h3, -, h5, -⟩ := C117_bounds h hP (by norm_num) hq (c := 95 / 100) (by norm_num) (by norm_num)
  exact ⟨r, g, ppf, lo, hi, h1, h2, h3, h5⟩

/-- Taking the measurement itself as the estimate is not better. -/
example : ∃ (r : Vec 4 → SWC (Vec 1) 1) (P : Mat 1 1), Posterior (normal (1 : Mat 4 4)) walkTruth [walkMeas] r (1 / 2) P ∧
    ∫ ω, (walkTruth (1 / 2) ω - (r ω).state.value) ⬝ᵥ (walkTruth (1 / 2) ω - (r ω).state.value) ∂(normal (1 : Mat 4 4))
      ≤ ∫ ω, (walkTruth (1 / 2) ω - (fun _ : Fin 1 => dataVec [walkMeas] ω ⟨0, (0 : Fin 1)⟩)) ⬝ᵥ
        (walkTruth (1 / 2) ω - (fun _ : Fin 1 => dataVec [walkMeas] ω ⟨0, (0 : Fin 1)⟩)) ∂(normal (1 : Mat 4 4)) := by
  obtain ⟨r, -, P, h, hP⟩ := walk_run
  refine ⟨r, P, h, (C118_best h (φ := fun d _ => d ⟨0, (0 : Fin 1)⟩) (measurable_pi_lambda _ fun _ => measurable_pi_apply _) ?_).2⟩
  intro i
  have e : (fun ω => (walkTruth (1 / 2) ω - fun _ : Fin 1 => dataVec [walkMeas] ω ⟨0, (0 : Fin 1)⟩) i) = fun ω : Vec 4 => -ω 3 := by
    funext ω
    have h3 : ¬ (1 : ℝ) ≤ 1 / 2 := by norm_num
    show (ω 0 + (if (1 / 2 : ℝ) ≤ 1 / 2 then ω 1 else 0) + (if (1 : ℝ) ≤ 1 / 2 then ω 2 else 0)) - (ω 0 + ω 1 + ω 3) = _
    simp only [if_neg h3, if_pos (le_refl _)]
    ring
  rw [e]
  exact (walk_sq 3).neg

end Verif
