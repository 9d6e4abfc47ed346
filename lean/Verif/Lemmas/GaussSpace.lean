import Verif.Lemmas.Gauss
import Verif.Lemmas.Moments
import Mathlib.Probability.Distributions.Gaussian.HasGaussianLaw.Independence
import Mathlib.Probability.CDF

/-!
Spaces of normally distributed random numbers; the chi-square distribution.
-/

set_option linter.unusedSectionVars false
set_option linter.unusedVariables false

namespace Verif

open Matrix MeasureTheory ProbabilityTheory

variable {Ω : Type} [MeasurableSpace Ω] {μ : Measure Ω}

/-- Finitely many elements of a space of normally distributed numbers are jointly Gaussian. -/
theorem gauss_vec [IsProbabilityMeasure μ] {G : Submodule ℝ (Ω → ℝ)} (hG : ∀ g ∈ G, HasGaussianLaw g μ) {ι : Type} [Fintype ι]
    {Z : ι → Ω → ℝ} (hZ : ∀ i, Z i ∈ G) : HasGaussianLaw (fun ω i => Z i ω) μ := by
  classical
  have hm : AEMeasurable (fun ω i => Z i ω) μ := aemeasurable_pi_lambda _ fun i => (hG _ (hZ i)).aemeasurable
  refine ⟨isGaussian_of_isGaussian_map fun L => ?_⟩
  rw [AEMeasurable.map_map_of_aemeasurable (by fun_prop) hm]
  have e : (L ∘ fun ω i => Z i ω) = ∑ i, L (Pi.single i 1) • Z i := by
    funext ω
    have h1 : (fun i => Z i ω) = ∑ i, Z i ω • (Pi.single i (1 : ℝ) : ι → ℝ) := by
      funext j
      simp [Finset.sum_apply, Pi.single_apply]
    rw [Function.comp_apply, h1, map_sum, Finset.sum_apply]
    refine Finset.sum_congr rfl fun i _ => ?_
    rw [map_smul, Pi.smul_apply, smul_eq_mul, smul_eq_mul, mul_comm]
  rw [e]
  exact (hG _ (G.sum_mem fun i _ => G.smul_mem _ (hZ i))).isGaussian_map

/-- Mean and covariance determine the law of a Gaussian vector. -/
theorem gauss_law [IsProbabilityMeasure μ] {G : Submodule ℝ (Ω → ℝ)} (hG : ∀ g ∈ G, HasGaussianLaw g μ) {m : ℕ} {Z : Ω → Vec m}
    (hZ : ∀ i, (fun ω => Z ω i) ∈ G) (h0 : rvMean μ Z = 0) {P : Mat m m} (hP : rvCross μ Z Z = P) : μ.map Z = normal P := by
  have hg : HasGaussianLaw Z μ := gauss_vec hG (Z := fun i ω => Z ω i) hZ
  have hs : SqInt μ Z := fun i => (hG _ (hZ i)).memLp_two
  have hpsd : P.PosSemidef := hP ▸ rvCross_psd hs
  have key : (μ.map Z).map (WithLp.toLp 2) = multivariateGaussian (0 : EuclideanSpace ℝ (Fin m)) P := by
    rw [AEMeasurable.map_map_of_aemeasurable (by fun_prop) hg.aemeasurable]
    have hmz : AEMeasurable (WithLp.toLp 2 ∘ Z) μ := (by fun_prop : Measurable (WithLp.toLp 2 : Vec m → EuclideanSpace ℝ (Fin m))).comp_aemeasurable hg.aemeasurable
    have : IsProbabilityMeasure (μ.map (WithLp.toLp 2 ∘ Z)) := Measure.isProbabilityMeasure_map hmz
    apply Measure.ext_of_charFun
    ext t
    rw [charFun_multivariateGaussian hpsd, charFun_apply, integral_map hmz (by fun_prop)]
    have hin : ∀ ω, inner ℝ ((WithLp.toLp 2 ∘ Z) ω) t = t.ofLp ⬝ᵥ Z ω := by
      intro ω
      rw [EuclideanSpace.inner_eq_star_dotProduct, star_trivial]
      rfl
    simp only [hin]
    have hmem : (fun ω => t.ofLp ⬝ᵥ Z ω) ∈ G := by
      have e : (fun ω => t.ofLp ⬝ᵥ Z ω) = ∑ i, t.ofLp i • fun ω => Z ω i := by
        funext ω
        rw [Finset.sum_apply]
        rfl
      rw [e]
      exact G.sum_mem fun i _ => G.smul_mem _ (hZ i)
    have hl := hG _ hmem
    have hmean : ∫ ω, t.ofLp ⬝ᵥ Z ω ∂μ = 0 := by
      have := rvMean_mulVec hs (of fun (_ : Fin 1) j => t.ofLp j)
      have := congrFun this 0
      rw [h0, mulVec_zero] at this
      exact this
    have hvar : ∫ ω, (t.ofLp ⬝ᵥ Z ω) ^ 2 ∂μ = t.ofLp ⬝ᵥ P *ᵥ t.ofLp := by
      have h1 := rvCross_mulVec_left hs (hs.mulVec (of fun (_ : Fin 1) j => t.ofLp j)) (of fun (_ : Fin 1) j => t.ofLp j)
      rw [rvCross_mulVec_right hs hs, hP] at h1
      have h2 := congrFun (congrFun h1 0) 0
      simp only [sq]
      refine h2.trans ?_
      rw [dotProduct_mulVec, ← Matrix.mul_assoc]
      rfl
    have hv : Var[fun ω => t.ofLp ⬝ᵥ Z ω; μ] = t.ofLp ⬝ᵥ P *ᵥ t.ofLp := by
      rw [variance_of_integral_eq_zero hl.aemeasurable hmean, hvar]
    have h3 := hl.map_eq_gaussianReal
    rw [hmean, hv] at h3
    have h4 := charFun_gaussianReal (μ := 0) (v := (t.ofLp ⬝ᵥ P *ᵥ t.ofLp).toNNReal) 1
    rw [← h3] at h4
    rw [charFun_apply, integral_map hl.aemeasurable (by fun_prop)] at h4
    have h5 : 0 ≤ t.ofLp ⬝ᵥ P *ᵥ t.ofLp := by rw [← hvar]; exact integral_nonneg fun ω => sq_nonneg _
    simp at h4 ⊢
    rw [h4, max_eq_left h5]
  unfold normal
  rw [← key, Measure.map_map (by fun_prop) (by fun_prop)]
  exact (Measure.map_id).symm

/-- Elements of such a space that are orthogonal to those of mean zero are independent. -/
theorem gauss_indep [IsProbabilityMeasure μ] {G : Submodule ℝ (Ω → ℝ)} (hG : ∀ g ∈ G, HasGaussianLaw g μ) {ι κ : Type} [Fintype ι]
    [Fintype κ] {Z : ι → Ω → ℝ} {W : κ → Ω → ℝ} (hZ : ∀ i, Z i ∈ G) (hW : ∀ i, W i ∈ G) (h0 : ∀ i, ∫ ω, Z i ω ∂μ = 0)
    (hc : ∀ i j, ∫ ω, Z i ω * W j ω ∂μ = 0) : IndepFun (fun ω i => Z i ω) (fun ω j => W j ω) μ := by
  have hv := gauss_vec hG (Z := Sum.elim Z W) (fun i => by cases i <;> simp [hZ, hW])
  have hp : HasGaussianLaw (fun ω => ((fun i => Z i ω), (fun j => W j ω))) μ := by
    have := hv.map_fun ((ContinuousLinearMap.pi fun i => ContinuousLinearMap.proj (R := ℝ) (φ := fun _ : ι ⊕ κ => ℝ) (Sum.inl i)).prod
      (ContinuousLinearMap.pi fun j => ContinuousLinearMap.proj (R := ℝ) (φ := fun _ : ι ⊕ κ => ℝ) (Sum.inr j)))
    exact this
  refine hp.indepFun_of_covariance_eval fun i j => ?_
  rw [covariance_eq_sub (hG _ (hZ i)).memLp_two (hG _ (hW j)).memLp_two, h0 i, zero_mul, sub_zero]
  exact hc i j

/-! ### The chi-square distribution -/

/-- The chi-square distribution with `k` degrees of freedom: the sum of the squares of `k` independent standard normal numbers. -/
noncomputable def chi2 (k : ℕ) : Measure ℝ := (stdN k).map fun z => z ⬝ᵥ z

theorem sqSum_measurable (k : ℕ) : Measurable fun z : Vec k => z ⬝ᵥ z := by
  unfold dotProduct
  fun_prop

instance (k : ℕ) : IsProbabilityMeasure (stdN k) := by unfold stdN; infer_instance

instance (k : ℕ) : IsProbabilityMeasure (chi2 k) := Measure.isProbabilityMeasure_map (sqSum_measurable k).aemeasurable

/-- The normalised square of a normal vector has the chi-square distribution. -/
theorem quad_chi2 {m : ℕ} {Z : Ω → Vec m} {P : Mat m m} (hP : P.PosDef) (hZ : μ.map Z = normal P) :
    μ.map (fun ω => Z ω ⬝ᵥ P⁻¹ *ᵥ Z ω) = chi2 m := by
  have hm : AEMeasurable Z μ := by
    by_contra h
    rw [Measure.map_of_not_aemeasurable h] at hZ
    exact IsProbabilityMeasure.ne_zero (normal P) hZ.symm
  have hq : Measurable fun v : Vec m => v ⬝ᵥ P⁻¹ *ᵥ v := by
    unfold dotProduct mulVec dotProduct
    fun_prop
  obtain ⟨L, -, rfl⟩ := chol_ok hP
  have hd : L.det ≠ 0 := by
    have := pd_det hP
    rw [det_mul] at this
    exact left_ne_zero_of_mul this
  have e1 : (fun ω => Z ω ⬝ᵥ (L * Lᵀ)⁻¹ *ᵥ Z ω) = (fun v : Vec m => v ⬝ᵥ (L * Lᵀ)⁻¹ *ᵥ v) ∘ Z := rfl
  rw [e1, ← AEMeasurable.map_map_of_aemeasurable hq.aemeasurable hm, hZ, normal_eq_map rfl, Measure.map_map hq (by unfold mulVec dotProduct; fun_prop)]
  unfold chi2
  congr 1
  funext z
  have hu := unit_of_det hd
  have hut : IsUnit Lᵀ.det := by rw [det_transpose]; exact hu
  show (L *ᵥ z) ⬝ᵥ (L * Lᵀ)⁻¹ *ᵥ (L *ᵥ z) = z ⬝ᵥ z
  rw [Matrix.mul_inv_rev, mulVec_mulVec, Matrix.mul_assoc, nonsing_inv_mul _ hu, Matrix.mul_one, dotProduct_comm, dotProduct_mulVec,
    ← mulVec_transpose, mulVec_mulVec, mul_nonsing_inv _ hut, one_mulVec]

theorem stdN_succ (k : ℕ) : (gaussianReal 0 1).prod (stdN k) = (stdN (k + 1)).map fun z => (z 0, fun i => z i.succ) := by
  have h := (measurePreserving_piFinSuccAbove (fun _ : Fin (k + 1) => gaussianReal 0 1) 0).map_eq
  exact h.symm

theorem chi2_succ (k : ℕ) : chi2 (k + 1) = ((gaussianReal 0 1).prod (stdN k)).map fun p => p.1 ^ 2 + p.2 ⬝ᵥ p.2 := by
  have hm : Measurable fun p : ℝ × Vec k => p.1 ^ 2 + p.2 ⬝ᵥ p.2 := by
    unfold dotProduct
    fun_prop
  rw [stdN_succ, Measure.map_map hm (by fun_prop)]
  unfold chi2
  congr 1
  funext z
  show ∑ i, z i * z i = z 0 ^ 2 + ∑ i : Fin k, z i.succ * z i.succ
  rw [Fin.sum_univ_succ, sq]

/-- The chi-square distribution has no atoms. -/
theorem chi2_noAtom (k : ℕ) (c : ℝ) : chi2 (k + 1) {c} = 0 := by
  have hm : Measurable fun p : ℝ × Vec k => p.1 ^ 2 + p.2 ⬝ᵥ p.2 := by
    unfold dotProduct
    fun_prop
  rw [chi2_succ, Measure.map_apply hm (measurableSet_singleton c), Measure.prod_apply_symm (hm (measurableSet_singleton c))]
  have h : ∀ y : Vec k, (gaussianReal 0 1) ((fun x => (x, y)) ⁻¹' ((fun p : ℝ × Vec k => p.1 ^ 2 + p.2 ⬝ᵥ p.2) ⁻¹' {c})) = 0 := by
    intro y
    have hna : NullSingletonClass (gaussianReal 0 1) := nullSingletonClass_gaussianReal (by norm_num)
    have hsub : ((fun x => (x, y)) ⁻¹' ((fun p : ℝ × Vec k => p.1 ^ 2 + p.2 ⬝ᵥ p.2) ⁻¹' {c}))
        ⊆ {Real.sqrt (c - y ⬝ᵥ y), -Real.sqrt (c - y ⬝ᵥ y)} := by
      intro x hx
      have hx : x ^ 2 + y ⬝ᵥ y = c := hx
      have h1 : c - y ⬝ᵥ y = x ^ 2 := by linarith
      rw [h1, Real.sqrt_sq_eq_abs]
      rcases abs_cases x with ⟨h, -⟩ | ⟨h, -⟩ <;> simp [h]
    exact measure_mono_null hsub (Set.Finite.measure_zero (by simp) _)
  simp [h]

/-- `q` is the quantile function of the chi-square distributions: `chi2.ppf(p, df=k)` is the number below which a chi-square variable
with `k` degrees of freedom lies with probability `p`. -/
def IsPpf (q : ℝ → ℝ → ℝ) : Prop :=
  ∀ (k : ℕ) (p : ℝ), 0 < k → 0 < p → p < 1 → chi2 k (Set.Iic (q p k)) = ENNReal.ofReal p

/-- There is such a function. -/
theorem exists_ppf : ∃ q, IsPpf q := by
  have h : ∀ (k : ℕ) (p : ℝ), 0 < k → 0 < p → p < 1 → ∃ x, chi2 k (Set.Iic x) = ENNReal.ofReal p := by
    intro k p hk h0 h1
    obtain ⟨k, rfl⟩ : ∃ j, k = j + 1 := ⟨k - 1, by omega⟩
    have hc : Continuous (cdf (chi2 (k + 1))) := by
      rw [continuous_iff_continuousAt]
      intro x
      have h2 := StieltjesFunction.measure_singleton (cdf (chi2 (k + 1))) x
      rw [measure_cdf, chi2_noAtom] at h2
      have h3 : Function.leftLim (cdf (chi2 (k + 1))) x = cdf (chi2 (k + 1)) x := by
        have h4 := (monotone_cdf (chi2 (k + 1))).leftLim_le (le_refl x)
        have h5 := ENNReal.ofReal_eq_zero.mp h2.symm
        linarith
      rw [(monotone_cdf (chi2 (k + 1))).continuousAt_iff_leftLim_eq_rightLim, h3]
      exact (StieltjesFunction.rightLim_eq _ x).symm
    obtain ⟨a, ha⟩ := ((tendsto_cdf_atBot (chi2 (k + 1))).eventually (gt_mem_nhds h0)).exists
    obtain ⟨c, hcc⟩ := ((tendsto_cdf_atTop (chi2 (k + 1))).eventually (lt_mem_nhds h1)).exists
    obtain ⟨x, hx⟩ := mem_range_of_exists_le_of_exists_ge hc ⟨a, ha.le⟩ ⟨c, hcc.le⟩
    exact ⟨x, by rw [← ofReal_cdf, hx]⟩
  classical
  refine ⟨fun p d => if h' : ∃ (k : ℕ) (x : ℝ), d = k ∧ chi2 k (Set.Iic x) = ENNReal.ofReal p then h'.choose_spec.choose else 0, ?_⟩
  intro k p hk h0 h1
  obtain ⟨x, hx⟩ := h k p hk h0 h1
  have h' : ∃ (k' : ℕ) (x : ℝ), (k : ℝ) = k' ∧ chi2 k' (Set.Iic x) = ENNReal.ofReal p := ⟨k, x, rfl, hx⟩
  simp only [dif_pos h']
  have key : ∀ (a : ℕ) (y : ℝ), (k : ℝ) = a → chi2 a (Set.Iic y) = ENNReal.ofReal p → chi2 k (Set.Iic y) = ENNReal.ofReal p := by
    intro a y e he
    have := Nat.cast_injective e
    rw [this]
    exact he
  exact key _ _ h'.choose_spec.choose_spec.1 h'.choose_spec.choose_spec.2

theorem chi2_mid {q : ℝ → ℝ → ℝ} (hq : IsPpf q) {k : ℕ} (hk : 0 < k) {a c : ℝ} (ha : 0 < a) (hc : 0 < c) (hac : a + c < 1) :
    chi2 k (Set.Icc (q a k) (q (a + c) k)) = ENNReal.ofReal c := by
  have h1 := hq k a hk ha (by linarith)
  have h2 := hq k (a + c) hk (by linarith) hac
  obtain ⟨j, rfl⟩ : ∃ j, k = j + 1 := ⟨k - 1, by omega⟩
  have hna : NullSingletonClass (chi2 (j + 1)) := ⟨fun x => chi2_noAtom j x⟩
  have h3 : Set.Icc (q a (j + 1 : ℕ)) (q (a + c) (j + 1 : ℕ)) =ᵐ[chi2 (j + 1)] Set.Ioc (q a (j + 1 : ℕ)) (q (a + c) (j + 1 : ℕ)) :=
    Ioc_ae_eq_Icc.symm
  rw [measure_congr h3, ← Set.Iic_sdiff_Iic, measure_sdiff, h2, h1, ← ENNReal.ofReal_sub _ ha.le]
  · congr 1
    ring
  · rw [Set.Iic_subset_Iic]
    by_contra hlt
    have h4 : chi2 (j + 1) (Set.Iic (q (a + c) (j + 1 : ℕ))) ≤ chi2 (j + 1) (Set.Iic (q a (j + 1 : ℕ))) :=
      measure_mono (Set.Iic_subset_Iic.mpr (not_le.mp hlt).le)
    rw [h1, h2, ENNReal.ofReal_le_ofReal_iff ha.le] at h4
    linarith
  · exact measurableSet_Iic.nullMeasurableSet
  · exact measure_ne_top _ _

theorem chi2_above {q : ℝ → ℝ → ℝ} (hq : IsPpf q) {k : ℕ} (hk : 0 < k) {p : ℝ} (h0 : 0 < p) (h1 : p < 1) :
    chi2 k (Set.Ioi (q p k)) = ENNReal.ofReal (1 - p) := by
  rw [← Set.compl_Iic, prob_compl_eq_one_sub measurableSet_Iic, hq k p hk h0 h1, ENNReal.ofReal_sub _ h0.le, ENNReal.ofReal_one]

/-- The sum of independent chi-square variables has as many degrees of freedom as they have together. -/
theorem chi2_conv : ∀ a b : ℕ, (chi2 a).conv (chi2 b) = chi2 (a + b)
  | 0, b => by
    have h : chi2 0 = Measure.dirac 0 := by
      have e : (fun z : Vec 0 => z ⬝ᵥ z) = fun _ => 0 := by
        funext z
        simp
      unfold chi2
      rw [e, Measure.map_const]
      simp
    rw [h, Measure.dirac_zero_conv, Nat.zero_add]
  | a + 1, b => by
    have step : ∀ k, chi2 (k + 1) = ((gaussianReal 0 1).map fun x => x ^ 2).conv (chi2 k) := by
      intro k
      unfold Measure.conv
      have h2 : ((gaussianReal 0 1).map fun x : ℝ => x ^ 2).prod (chi2 k) =
          ((gaussianReal 0 1).prod (stdN k)).map (Prod.map (fun x => x ^ 2) fun z => z ⬝ᵥ z) := by
        unfold chi2
        exact Measure.map_prod_map _ _ (by fun_prop) (sqSum_measurable k)
      rw [h2, Measure.map_map (by fun_prop) ((by fun_prop : Measurable fun x : ℝ => x ^ 2).prodMap (sqSum_measurable k)), chi2_succ]
      rfl
    have hp : IsProbabilityMeasure ((gaussianReal 0 1).map fun x : ℝ => x ^ 2) := Measure.isProbabilityMeasure_map (by fun_prop)
    rw [step a, Measure.conv_assoc, chi2_conv a b, ← step, Nat.add_right_comm]

theorem chi2_sum {ι : Type} (s : Finset ι) {Y : ι → Ω → ℝ} [IsProbabilityMeasure μ] (hi : iIndepFun Y μ) {k : ℕ}
    (hY : ∀ i, μ.map (Y i) = chi2 k) : μ.map (fun ω => ∑ i ∈ s, Y i ω) = chi2 (s.card * k) := by
  classical
  have hm : ∀ i, AEMeasurable (Y i) μ := by
    intro i
    by_contra h
    have := hY i
    rw [Measure.map_of_not_aemeasurable h] at this
    exact IsProbabilityMeasure.ne_zero (chi2 k) this.symm
  induction s using Finset.induction_on with
  | empty =>
    simp only [Finset.sum_empty, Finset.card_empty, Nat.zero_mul]
    have e : (fun z : Vec 0 => z ⬝ᵥ z) = fun _ => 0 := by
      funext z
      simp
    unfold chi2
    rw [e, Measure.map_const, Measure.map_const]
    simp
  | insert j s hj ih =>
    have h1 : IndepFun (Y j) (∑ i ∈ s, Y i) μ := (hi.indepFun_finsetSum_of_notMem₀ hm hj).symm
    have e : (fun ω => ∑ i ∈ insert j s, Y i ω) = Y j + ∑ i ∈ s, Y i := by
      funext ω
      rw [Finset.sum_insert hj, Pi.add_apply, Finset.sum_apply]
    have e2 : (∑ i ∈ s, Y i) = fun ω => ∑ i ∈ s, Y i ω := by
      funext ω
      rw [Finset.sum_apply]
    rw [e, h1.map_add_eq_map_conv_map₀ (hm j) (Finset.aemeasurable_sum s fun i _ => hm i), hY j, e2, ih, chi2_conv, Finset.card_insert_of_notMem hj,
      Nat.add_one_mul, Nat.add_comm]

end Verif
