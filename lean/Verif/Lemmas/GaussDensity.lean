import Verif.Lemmas.GaussSpace
import Verif.Model.Imm

/-!
The density of a normal distribution is the function `multivariate_normal.pdf` of the model.
-/

set_option linter.unusedSectionVars false
set_option linter.unusedVariables false

namespace Verif

open Matrix MeasureTheory ProbabilityTheory

theorem gaussPdf_one {N : ℕ} (v : Vec N) : gaussPdf v (1 : Mat N N) = ∏ i, gaussianPDFReal 0 1 (v i) := by
  unfold gaussPdf gaussianPDFReal
  rw [Finset.prod_mul_distrib, ← Real.exp_sum, Finset.prod_const, Finset.card_univ, Fintype.card_fin, inv_one, one_mulVec, det_one, mul_one,
    div_eq_mul_inv, mul_comm]
  congr 1
  · rw [inv_pow]
    congr 1
    rw [NNReal.coe_one, mul_one, Real.sqrt_eq_iff_mul_self_eq (by positivity) (by positivity), ← mul_pow, Real.mul_self_sqrt (by positivity)]
  · congr 1
    unfold dotProduct
    rw [Finset.mul_sum]
    refine Finset.sum_congr rfl fun i _ => ?_
    rw [NNReal.coe_one]
    ring

theorem pdf_pos {N : ℕ} {S : Mat N N} (hS : S.PosDef) (v : Vec N) : 0 < gaussPdf v S := by
  have := hS.det_pos
  unfold gaussPdf
  positivity

theorem gaussPdf_measurable {N : ℕ} (S : Mat N N) : Measurable fun v : Vec N => gaussPdf v S := by
  unfold gaussPdf dotProduct mulVec dotProduct
  fun_prop

theorem stdN_density (N : ℕ) : stdN N = volume.withDensity fun v : Vec N => ENNReal.ofReal (gaussPdf v (1 : Mat N N)) := by
  unfold stdN
  refine Measure.pi_eq (μ := fun _ : Fin N => gaussianReal 0 1) fun s hs => ?_
  rw [withDensity_apply _ (MeasurableSet.univ_pi hs)]
  have h1 : ∀ v : Vec N, (Set.univ.pi s).indicator (fun v : Vec N => ENNReal.ofReal (gaussPdf v (1 : Mat N N))) v
      = ENNReal.ofReal (∏ i, (s i).indicator (gaussianPDFReal 0 1) (v i)) := by
    intro v
    by_cases hv : v ∈ Set.univ.pi s
    · rw [Set.indicator_of_mem hv, gaussPdf_one]
      congr 1
      refine Finset.prod_congr rfl fun i _ => ?_
      rw [Set.indicator_of_mem (hv i (Set.mem_univ i))]
    · rw [Set.indicator_of_notMem hv]
      simp only [Set.mem_univ_pi, not_forall] at hv
      obtain ⟨i, hi⟩ := hv
      rw [Finset.prod_eq_zero (Finset.mem_univ i) (Set.indicator_of_notMem hi _), ENNReal.ofReal_zero]
  have hint : ∀ i, Integrable ((s i).indicator (gaussianPDFReal 0 1)) := fun i => (integrable_gaussianPDFReal 0 1).indicator (hs i)
  have hnn : ∀ i x, 0 ≤ (s i).indicator (gaussianPDFReal 0 1) x := fun i x =>
    Set.indicator_nonneg (fun x _ => gaussianPDFReal_nonneg 0 1 x) x
  rw [← lintegral_indicator (MeasurableSet.univ_pi hs)]
  simp only [h1]
  have hI : Integrable (fun v : Vec N => ∏ i, (s i).indicator (gaussianPDFReal 0 1) (v i)) volume := Integrable.fintype_prod hint
  rw [← ofReal_integral_eq_lintegral_ofReal hI
    (ae_of_all _ fun v => Finset.prod_nonneg fun i _ => hnn i _), integral_fintype_prod_volume_eq_prod,
    ENNReal.ofReal_prod_of_nonneg fun i _ => integral_nonneg (hnn i)]
  refine Finset.prod_congr rfl fun i _ => ?_
  rw [gaussianReal_of_var_ne_zero _ one_ne_zero, withDensity_apply _ (hs i), ofReal_integral_eq_lintegral_ofReal (hint i)
    (ae_of_all _ (hnn i)), ← lintegral_indicator (hs i)]
  refine lintegral_congr fun x => ?_
  by_cases hx : x ∈ s i
  · rw [Set.indicator_of_mem hx, Set.indicator_of_mem hx]
    rfl
  · rw [Set.indicator_of_notMem hx, Set.indicator_of_notMem hx, ENNReal.ofReal_zero]

/-- The density of the normal distribution with covariance `S`. -/
theorem normal_density {N : ℕ} {S : Mat N N} (hS : S.PosDef) :
    normal S = volume.withDensity fun v : Vec N => ENNReal.ofReal (gaussPdf v S) := by
  obtain ⟨L, -, hL⟩ := chol_ok hS
  have hd : S.det = L.det ^ 2 := by rw [← hL, det_mul, det_transpose]; ring
  have hLd : L.det ≠ 0 := by
    intro h0
    rw [h0] at hd
    exact pd_det hS (by rw [hd]; ring)
  have hu := unit_of_det hLd
  have hquad : ∀ v : Vec N, gaussPdf (L *ᵥ v) S = |L.det⁻¹| * gaussPdf v (1 : Mat N N) := by
    intro v
    have hSi : S⁻¹ = (L⁻¹)ᵀ * L⁻¹ := by
      rw [← hL, Matrix.mul_inv_rev, transpose_nonsing_inv]
    have h1 : (L *ᵥ v) ⬝ᵥ S⁻¹ *ᵥ (L *ᵥ v) = v ⬝ᵥ v := by
      rw [hSi, ← mulVec_mulVec, mulVec_mulVec (M := L⁻¹), Matrix.nonsing_inv_mul _ hu, one_mulVec, dotProduct_mulVec, ← mulVec_transpose,
        transpose_transpose, mulVec_mulVec, Matrix.nonsing_inv_mul _ hu, one_mulVec]
    unfold gaussPdf
    rw [h1, inv_one, one_mulVec, det_one, mul_one, hd, Real.sqrt_mul (by positivity), Real.sqrt_sq_eq_abs, abs_inv]
    field_simp
  have hmeas : Measurable fun v : Vec N => L *ᵥ v := by
    unfold mulVec dotProduct
    fun_prop
  ext s hs
  have hg : Measurable fun v : Vec N => ENNReal.ofReal (gaussPdf v S) := (gaussPdf_measurable S).ennreal_ofReal
  rw [normal_eq_map hL, Measure.map_apply hmeas hs, stdN_density, withDensity_apply _ (hmeas hs), withDensity_apply _ hs]
  have hvol := Real.map_matrix_volume_pi_eq_smul_volume_pi hLd
  have e : (volume : Measure (Vec N)) = ENNReal.ofReal |L.det| • Measure.map (fun v : Vec N => L *ᵥ v) volume := by
    have : Measure.map (fun v : Vec N => L *ᵥ v) volume = ENNReal.ofReal |(L.det)⁻¹| • volume := hvol
    rw [this, smul_smul, ← ENNReal.ofReal_mul (abs_nonneg _), ← abs_mul, mul_inv_cancel₀ hLd, abs_one, ENNReal.ofReal_one, one_smul]
  conv_rhs => rw [e]
  rw [Measure.restrict_smul, lintegral_smul_measure, ← lintegral_indicator hs, lintegral_map (hg.indicator hs) hmeas,
    ← lintegral_indicator (hmeas hs), smul_eq_mul, ← lintegral_const_mul' _ _ ENNReal.ofReal_ne_top]
  refine lintegral_congr fun v => ?_
  by_cases hv : L *ᵥ v ∈ s
  · rw [Set.indicator_of_mem hv, Set.indicator_of_mem (show v ∈ (fun v : Vec N => L *ᵥ v) ⁻¹' s from hv), hquad,
      ← ENNReal.ofReal_mul (abs_nonneg _), ← mul_assoc, ← abs_mul, mul_inv_cancel₀ hLd, abs_one, one_mul]
  · rw [Set.indicator_of_notMem hv, Set.indicator_of_notMem (show v ∉ (fun v : Vec N => L *ᵥ v) ⁻¹' s from hv), mul_zero]

/-- A measure preserving map carries densities along. -/
theorem map_withDensity {α β : Type} [MeasurableSpace α] [MeasurableSpace β] {a : Measure α} {c : Measure β} {g : α → β}
    (hg : MeasurePreserving g a c) {f : β → ENNReal} (hf : Measurable f) :
    (a.withDensity fun x => f (g x)).map g = c.withDensity f := by
  ext s hs
  rw [Measure.map_apply hg.measurable hs, withDensity_apply _ (hg.measurable hs), withDensity_apply _ hs]
  exact hg.setLIntegral_comp_preimage hs hf

/-- Appending a vector, shifted by a function of what is there. -/
theorem append_preserving {κ : Type} [Fintype κ] {m : ℕ} {c : (κ → ℝ) → Vec m} (hc : Measurable c) :
    MeasurePreserving (fun q : (κ → ℝ) × Vec m => (Sum.elim q.1 (q.2 + c q.1) : κ ⊕ Fin m → ℝ)) := by
  have h1 : MeasurePreserving (fun q : (κ → ℝ) × Vec m => (q.1, q.2 + c q.1)) (volume.prod volume) (volume.prod volume) := by
    refine (MeasurePreserving.id (volume : Measure (κ → ℝ))).skew_product (g := fun d z => z + c d) ?_ (ae_of_all _ fun d => ?_)
    · exact measurable_snd.add (hc.comp measurable_fst)
    · exact (measurePreserving_add_right volume (c d)).map_eq
  exact (volume_measurePreserving_sumPiEquivProdPi_symm (fun _ : κ ⊕ Fin m => ℝ)).comp h1

variable {Ω : Type} [MeasurableSpace Ω]

/-- The density of the data grows by the density of the innovation. -/
theorem density_append {ν : Measure Ω} [IsProbabilityMeasure ν] {κ : Type} [Fintype κ] {W : κ → Ω → ℝ}
    (hWm : AEMeasurable (fun ω k => W k ω) ν)
    {p : (κ → ℝ) → ℝ} (hp : Measurable p) (h0 : ∀ d, 0 < p d)
    (hW : ν.map (fun ω k => W k ω) = volume.withDensity fun d => ENNReal.ofReal (p d)) {m : ℕ} {y : Ω → Vec m} {c : (κ → ℝ) → Vec m}
    (hc : Measurable c) {S : Mat m m} (hS : S.PosDef) (hl : ν.map (fun ω => y ω - c (fun k => W k ω)) = normal S)
    (hzm : AEMeasurable (fun ω => y ω - c (fun k => W k ω)) ν)
    (hi : IndepFun (fun ω => y ω - c (fun k => W k ω)) (fun ω k => W k ω) ν) :
    ν.map (fun ω (k : κ ⊕ Fin m) => Sum.elim W (fun j ω => y ω j) k ω)
      = volume.withDensity fun d : κ ⊕ Fin m → ℝ => ENNReal.ofReal (p (fun k => d (.inl k))
          * gaussPdf ((fun j => d (.inr j)) - c (fun k => d (.inl k))) S) := by
  have hj := (indepFun_iff_map_prod_eq_prod_map_map hWm hzm).mp hi.symm
  rw [hl, hW, normal_density hS, prod_withDensity hp.ennreal_ofReal (gaussPdf_measurable S).ennreal_ofReal] at hj
  have hmp := append_preserving hc
  have e1 : (fun ω (k : κ ⊕ Fin m) => Sum.elim W (fun j ω => y ω j) k ω)
      = (fun q : (κ → ℝ) × Vec m => (Sum.elim q.1 (q.2 + c q.1) : κ ⊕ Fin m → ℝ))
        ∘ fun ω => ((fun k => W k ω), y ω - c (fun k => W k ω)) := by
    funext ω k
    cases k with
    | inl k => rfl
    | inr j =>
      show y ω j = (y ω - c (fun k => W k ω) + c (fun k => W k ω)) j
      rw [sub_add_cancel]
  have hin : Measurable fun d : κ ⊕ Fin m → ℝ => (fun k => d (.inl k) : κ → ℝ) := by fun_prop
  have hf : Measurable fun d : κ ⊕ Fin m → ℝ => ENNReal.ofReal (p (fun k => d (.inl k))
          * gaussPdf ((fun j => d (.inr j)) - c (fun k => d (.inl k))) S) := by
    refine Measurable.ennreal_ofReal ((hp.comp hin).mul ((gaussPdf_measurable S).comp ?_))
    exact (by fun_prop : Measurable fun d : κ ⊕ Fin m → ℝ => (fun j => d (.inr j) : Vec m)).sub (hc.comp hin)
  rw [e1, ← AEMeasurable.map_map_of_aemeasurable hmp.measurable.aemeasurable (hWm.prodMk hzm), hj, ← map_withDensity hmp hf]
  congr 2
  funext q
  show ENNReal.ofReal (p q.1) * ENNReal.ofReal (gaussPdf q.2 S) = ENNReal.ofReal (p q.1 * gaussPdf (q.2 + c q.1 - c q.1) S)
  rw [add_sub_cancel_right, ENNReal.ofReal_mul (h0 _).le]

/-- Bayes' rule: `μ` mixes the laws `ν j` with the weights `w j`, under which the data `W` have the densities `p j`. -/
theorem bayes_rule {E : Type} [MeasurableSpace E] {lam : Measure E} {ι : Type} [Fintype ι] {μ : Measure Ω} {ν : ι → Measure Ω}
    {w : ι → ℝ} (hw : ∀ j, 0 < w j) (hμ : μ = ∑ j, ENNReal.ofReal (w j) • ν j) {W : Ω → E} (hW : ∀ j, AEMeasurable W (ν j))
    {p : ι → E → ℝ} (hp : ∀ j, Measurable (p j)) (h0 : ∀ j d, 0 < p j d)
    (hd : ∀ j, (ν j).map W = lam.withDensity fun d => ENNReal.ofReal (p j d)) {T : Set E} (hT : MeasurableSet T)
    {h : E → ENNReal} (hh : Measurable h) (i : ι) :
    ∫⁻ ω in W ⁻¹' T, ENNReal.ofReal (w i * p i (W ω) / ∑ j, w j * p j (W ω)) * h (W ω) ∂μ
      = ENNReal.ofReal (w i) * ∫⁻ ω in W ⁻¹' T, h (W ω) ∂(ν i) := by
  have hWμ : AEMeasurable W μ := by
    rw [hμ, ← Measure.sum_fintype]
    exact AEMeasurable.sum_measure fun j => (hW j).smul_measure _
  have hρ : Measurable fun d => ∑ j, w j * p j d := Finset.measurable_fun_sum _ fun j _ => (hp j).const_mul _
  have hmap : μ.map W = lam.withDensity fun d => ENNReal.ofReal (∑ j, w j * p j d) := by
    ext s hs
    rw [Measure.map_apply_of_aemeasurable hWμ hs, hμ, Measure.finsetSum_apply, withDensity_apply _ hs]
    have : ∀ j, (ENNReal.ofReal (w j) • ν j) (W ⁻¹' s) = ∫⁻ d in s, ENNReal.ofReal (w j * p j d) ∂lam := by
      intro j
      rw [Measure.smul_apply, ← Measure.map_apply_of_aemeasurable (hW j) hs, hd j, withDensity_apply _ hs, smul_eq_mul,
        ← lintegral_const_mul' _ _ ENNReal.ofReal_ne_top]
      simp only [ENNReal.ofReal_mul (hw j).le]
    simp only [this]
    rw [← lintegral_finsetSum _ fun j _ => ((hp j).const_mul _).ennreal_ofReal]
    refine lintegral_congr fun d => ?_
    rw [ENNReal.ofReal_sum_of_nonneg fun j _ => (mul_pos (hw j) (h0 j d)).le]
  have h1 : Measurable fun d => ENNReal.ofReal (w i * p i d / ∑ j, w j * p j d) * h d :=
    (((hp i).const_mul _).div hρ).ennreal_ofReal.mul hh
  have e1 : ∀ (ρ : Measure Ω), AEMeasurable W ρ → ∀ g : E → ENNReal, Measurable g →
      ∫⁻ ω in W ⁻¹' T, g (W ω) ∂ρ = ∫⁻ d in T, g d ∂(ρ.map W) := by
    intro ρ hρ g hg
    rw [Measure.restrict_map_of_aemeasurable hρ hT, lintegral_map' hg.aemeasurable hρ.restrict]
  rw [e1 μ hWμ _ h1, e1 (ν i) (hW i) h hh, hmap, hd i, restrict_withDensity hT, restrict_withDensity hT,
    lintegral_withDensity_eq_lintegral_mul _ hρ.ennreal_ofReal h1, lintegral_withDensity_eq_lintegral_mul _ (hp i).ennreal_ofReal hh,
    ← lintegral_const_mul' _ _ ENNReal.ofReal_ne_top]
  refine lintegral_congr fun d => ?_
  have hpos : 0 < ∑ j, w j * p j d := Finset.sum_pos (fun j _ => mul_pos (hw j) (h0 j d)) ⟨i, Finset.mem_univ i⟩
  simp only [Pi.mul_apply]
  rw [← mul_assoc, ← mul_assoc, ← ENNReal.ofReal_mul hpos.le, ← ENNReal.ofReal_mul (hw i).le, mul_div_cancel₀ _ hpos.ne']

end Verif
