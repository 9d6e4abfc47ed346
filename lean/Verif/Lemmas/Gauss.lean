import Verif.Lemmas.Sigma
import Verif.Lemmas.Moments
import Mathlib.Probability.Distributions.Gaussian.Multivariate
import Mathlib.Probability.Moments.MGFAnalytic
import Mathlib.MeasureTheory.Integral.Pi
import Mathlib.Algebra.MvPolynomial.Degrees
import Mathlib.Algebra.MvPolynomial.Monad
import Mathlib.Topology.Algebra.MvPolynomial

/-!
Integrals of polynomials against Gaussian measures, and the sigma point sets as quadrature rules (for C109, C110).
-/

namespace Verif

open Matrix MeasureTheory ProbabilityTheory

set_option linter.unusedVariables false
set_option linter.unusedSectionVars false

/-! ### Moments of the standard normal distribution -/

/-- The `a`-th moment of the standard normal distribution. -/
noncomputable def gm (a : ℕ) : ℝ := ∫ t : ℝ, t ^ a ∂(gaussianReal 0 1)

theorem gm_integrable (a : ℕ) : Integrable (fun t : ℝ => t ^ a) (gaussianReal 0 1) := by
  have h := memLp_id_gaussianReal (μ := 0) (v := 1) (a : NNReal)
  have := h.integrable_norm_pow'
  rw [← integrable_norm_iff (by fun_prop)]
  simpa using this

theorem gm_zero : gm 0 = 1 := by simp [gm]

theorem gm_odd {a : ℕ} (h : Odd a) : gm a = 0 := by
  have e : (gaussianReal 0 1).map (fun x : ℝ => -x) = gaussianReal 0 1 := by
    rw [gaussianReal_map_neg, neg_zero]
  have h1 : gm a = ∫ t : ℝ, (-t) ^ a ∂(gaussianReal 0 1) := by
    unfold gm
    conv_lhs => rw [← e]
    rw [integral_map (by fun_prop) (by fun_prop)]
  have h2 : ∫ t : ℝ, (-t) ^ a ∂(gaussianReal 0 1) = -gm a := by
    simp only [h.neg_pow]
    rw [integral_neg]
    rfl
  linarith

theorem gm_even : gm 2 = 1 ∧ gm 4 = 3 := by
  have hint : (0 : ℝ) ∈ interior (integrableExpSet id (gaussianReal 0 1)) := by
    rw [integrableExpSet_id_gaussianReal]; simp
  have hm : mgf id (gaussianReal 0 1) = fun t => Real.exp (t ^ 2 / 2) := by
    rw [mgf_id_gaussianReal]; funext t; simp
  have hd0 : ∀ t : ℝ, HasDerivAt (fun t : ℝ => Real.exp (t ^ 2 / 2)) (t * Real.exp (t ^ 2 / 2)) t := by
    intro t
    have := ((hasDerivAt_pow 2 t).div_const 2).exp
    convert this using 1
    simp; ring
  have f1 : deriv (fun t : ℝ => Real.exp (t ^ 2 / 2)) = fun t => t * Real.exp (t ^ 2 / 2) := funext fun t => (hd0 t).deriv
  have f2 : deriv (fun t : ℝ => t * Real.exp (t ^ 2 / 2)) = fun t => (1 + t ^ 2) * Real.exp (t ^ 2 / 2) := funext fun t => by
    have := (hasDerivAt_id t).mul (hd0 t)
    refine HasDerivAt.deriv (this.congr_deriv ?_)
    simp; ring
  have f3 : deriv (fun t : ℝ => (1 + t ^ 2) * Real.exp (t ^ 2 / 2)) = fun t => (3 * t + t ^ 3) * Real.exp (t ^ 2 / 2) :=
    funext fun t => by
    have := ((hasDerivAt_pow 2 t).const_add 1).mul (hd0 t)
    refine HasDerivAt.deriv (this.congr_deriv ?_)
    simp; ring
  have f4 : deriv (fun t : ℝ => (3 * t + t ^ 3) * Real.exp (t ^ 2 / 2)) =
      fun t => (3 + 6 * t ^ 2 + t ^ 4) * Real.exp (t ^ 2 / 2) := funext fun t => by
    have := (((hasDerivAt_id t).const_mul 3).add (hasDerivAt_pow 3 t)).mul (hd0 t)
    refine HasDerivAt.deriv (this.congr_deriv ?_)
    simp; ring
  have key : ∀ a, gm a = iteratedDeriv a (mgf id (gaussianReal 0 1)) 0 := by
    intro a
    rw [iteratedDeriv_mgf_zero hint]
    simp [gm]
  constructor
  · rw [key, hm, iteratedDeriv_succ, iteratedDeriv_one, f1, f2]
    simp
  · rw [key, hm, iteratedDeriv_succ, iteratedDeriv_succ, iteratedDeriv_succ, iteratedDeriv_one, f1, f2, f3, f4]
    simp

/-! ### Polynomials and the standard normal distribution in several variables -/

variable {N : ℕ}

/-- The standard normal distribution of vectors. -/
noncomputable def stdN (N : ℕ) : Measure (Vec N) := Measure.pi fun _ : Fin N => gaussianReal 0 1

instance : IsProbabilityMeasure (stdN N) := by unfold stdN; infer_instance

theorem mono_integrable (s : Fin N → ℕ) : Integrable (fun z : Vec N => ∏ j, z j ^ s j) (stdN N) :=
  Integrable.fintype_prod (f := fun j (t : ℝ) => t ^ s j) fun j => gm_integrable (s j)

theorem mono_integral (s : Fin N → ℕ) : ∫ z : Vec N, ∏ j, z j ^ s j ∂(stdN N) = ∏ j, gm (s j) :=
  integral_fintype_prod_eq_prod (fun j (t : ℝ) => t ^ s j)

theorem eval_sum (p : MvPolynomial (Fin N) ℝ) (z : Vec N) :
    MvPolynomial.eval z p = ∑ s ∈ p.support, p.coeff s * ∏ j, z j ^ s j := by
  rw [MvPolynomial.eval_eq']

theorem poly_integrable (p : MvPolynomial (Fin N) ℝ) : Integrable (fun z : Vec N => MvPolynomial.eval z p) (stdN N) := by
  simp only [eval_sum]
  exact integrable_finsetSum _ fun s _ => (mono_integrable fun j => s j).const_mul _

theorem poly_integral (p : MvPolynomial (Fin N) ℝ) :
    ∫ z : Vec N, MvPolynomial.eval z p ∂(stdN N) = ∑ s ∈ p.support, p.coeff s * ∏ j, gm (s j) := by
  simp only [eval_sum]
  rw [integral_finsetSum _ fun s _ => (mono_integrable fun j => s j).const_mul _]
  exact Finset.sum_congr rfl fun s _ => by rw [integral_const_mul, mono_integral fun j => s j]

/-- A weighted set of points integrates polynomials of total degree at most `d` exactly. -/
def ExactTo (d : ℕ) (σ : Weighted (Vec N)) : Prop :=
  ∀ p : MvPolynomial (Fin N) ℝ, p.totalDegree ≤ d →
    wsum σ (fun z => MvPolynomial.eval z p) = ∫ z, MvPolynomial.eval z p ∂(stdN N)

theorem wsum_finsetSum {ι α : Type} (l : Weighted α) (t : Finset ι) (f : ι → α → ℝ) :
    wsum l (fun a => ∑ i ∈ t, f i a) = ∑ i ∈ t, wsum l (f i) := by
  induction l with
  | nil => simp [wsum_nil]
  | cons p l ih =>
    simp only [wsum_cons]
    rw [ih, Finset.smul_sum, Finset.sum_add_distrib]

theorem exactTo_of_mono {d : ℕ} {σ : Weighted (Vec N)}
    (h : ∀ s : Fin N → ℕ, ∑ j, s j ≤ d → wsum σ (fun z => ∏ j, z j ^ s j) = ∏ j, gm (s j)) : ExactTo d σ := by
  intro p hp
  rw [poly_integral]
  simp only [eval_sum]
  rw [wsum_finsetSum]
  refine Finset.sum_congr rfl fun s hs => ?_
  have hdeg : ∑ j, s j ≤ d := by
    have := MvPolynomial.le_totalDegree hs
    rw [Finsupp.sum_fintype _ _ (fun _ => rfl)] at this
    exact le_trans this hp
  have := wsum_linear (LinearMap.mulLeft ℝ (p.coeff s)) σ (fun z : Vec N => ∏ j, z j ^ s j)
  simp only [LinearMap.mulLeft_apply] at this
  rw [this, h (fun j => s j) hdeg]

/-! ### The three sets of sigma points -/

theorem gh_pow {a : ℕ} (h : a ≤ 5) : ∑ d, ghWeight d * ghRoot d ^ a = gm a := by
  obtain ⟨h0, h1, h2⟩ := ghWeight_val
  have h3 : Real.sqrt 3 ^ 2 = 3 := Real.sq_sqrt (by norm_num)
  have h4 : Real.sqrt 3 ^ 4 = 9 := by rw [show (4 : ℕ) = 2 * 2 by norm_num, pow_mul, h3]; norm_num
  rw [Fin.sum_univ_three, h0, h1, h2]
  obtain ⟨g2, g4⟩ := gm_even
  have e0 : ghRoot 0 = -Real.sqrt 3 := rfl
  have e1 : ghRoot 1 = 0 := rfl
  have e2 : ghRoot 2 = Real.sqrt 3 := rfl
  rw [e0, e1, e2]
  interval_cases a
  · rw [gm_zero]; norm_num
  · rw [gm_odd (by decide)]; ring
  · rw [g2, neg_sq, h3]; norm_num
  · rw [gm_odd (by decide)]; ring
  · rw [g4, show (-Real.sqrt 3) ^ 4 = Real.sqrt 3 ^ 4 by ring, h4]; norm_num
  · rw [gm_odd (by decide)]; ring

theorem gh_exact (N : ℕ) : ExactTo 5 (ghPoints N) := by
  refine exactTo_of_mono fun s hs => ?_
  rw [wsum_gh _ (fun j d => ghWeight d * ghRoot d ^ s j) (by intro k; rw [← Finset.prod_mul_distrib])]
  refine Finset.prod_congr rfl fun j _ => gh_pow ?_
  exact le_trans (Finset.single_le_sum (f := s) (fun i _ => Nat.zero_le _) (Finset.mem_univ j)) hs

/-- The monomial at a point on an axis. -/
theorem mono_axis (s : Fin N → ℕ) (c : ℝ) (i : Fin N) (h : ∃ j, j ≠ i ∧ s j ≠ 0) :
    ∏ j, (c • unitVec i : Vec N) j ^ s j = 0 := by
  obtain ⟨j, hj, hs⟩ := h
  refine Finset.prod_eq_zero (Finset.mem_univ j) ?_
  simp [unitVec, hj, hs]

theorem mono_axis' (s : Fin N → ℕ) (c : ℝ) (i : Fin N) (h : ∀ j, j ≠ i → s j = 0) :
    ∏ j, (c • unitVec i : Vec N) j ^ s j = c ^ s i := by
  rw [Finset.prod_eq_single i (fun j _ hj => by rw [h j hj, pow_zero]) (by simp)]
  simp [unitVec]

/-- Pairs of opposite points on the axes integrate to the right values if their weights and their distance fit. -/
theorem axes_mono {w c : ℝ} (hwc : 2 * w * c ^ 2 = 1) (s : Fin N → ℕ) (hs : ∑ j, s j ≤ 3) (h0 : ∃ j, s j ≠ 0) :
    ∑ i : Fin N, w * ∏ j, (c • unitVec i : Vec N) j ^ s j + ∑ i : Fin N, w * ∏ j, (c • (-unitVec i) : Vec N) j ^ s j =
      ∏ j, gm (s j) := by
  have hneg : ∀ i : Fin N, (c • (-unitVec i) : Vec N) = (-c) • unitVec i := by intro i; simp
  simp only [hneg]
  by_cases hodd : ∃ j, Odd (s j)
  · obtain ⟨j, hj⟩ := hodd
    rw [Finset.prod_eq_zero (Finset.mem_univ j) (gm_odd hj), ← Finset.sum_add_distrib]
    refine Finset.sum_eq_zero fun i _ => ?_
    by_cases hi : ∃ l, l ≠ i ∧ s l ≠ 0
    · rw [mono_axis s c i hi, mono_axis s (-c) i hi]; ring
    · have hi' : ∀ l, l ≠ i → s l = 0 := fun l hl => by
        by_contra hne
        exact hi ⟨l, hl, hne⟩
      have hij : j = i := by
        by_contra hne
        rw [hi' j hne] at hj
        exact absurd hj (by decide)
      subst hij
      rw [mono_axis' s c j hi', mono_axis' s (-c) j hi', hj.neg_pow]
      ring
  · have hev : ∀ j, Even (s j) := fun j => Nat.not_odd_iff_even.1 fun h => hodd ⟨j, h⟩
    obtain ⟨j, hj⟩ := h0
    have hj2 : 2 ≤ s j := by
      obtain ⟨r, hr⟩ := hev j
      omega
    have hle : ∀ i, i ≠ j → s i + s j ≤ ∑ l, s l := by
      intro i hij
      have := Finset.sum_le_sum_of_subset (f := s) (Finset.subset_univ {i, j})
      rwa [Finset.sum_pair hij] at this
    have hoth : ∀ i, i ≠ j → s i = 0 := by
      intro i hij
      have := hle i hij
      obtain ⟨r, hr⟩ := hev i
      omega
    have hsj : s j = 2 := by
      have := Finset.single_le_sum (f := s) (fun i _ => Nat.zero_le _) (Finset.mem_univ j)
      obtain ⟨r, hr⟩ := hev j
      omega
    have hoff : ∀ (c : ℝ) (i : Fin N), i ≠ j → w * ∏ l, (c • unitVec i : Vec N) l ^ s l = 0 := by
      intro c i hij
      rw [mono_axis s c i ⟨j, fun e => hij e.symm, by omega⟩, mul_zero]
    rw [Finset.sum_eq_single j (fun i _ hij => hoff c i hij) (by simp),
      Finset.sum_eq_single j (fun i _ hij => hoff (-c) i hij) (by simp), mono_axis' s c j hoth, mono_axis' s (-c) j hoth,
      Finset.prod_eq_single j (fun i _ hij => by rw [hoth i hij, gm_zero]) (by simp), hsj, gm_even.1, neg_sq, ← hwc]
    ring

theorem mono_const (s : Fin N → ℕ) (h : ∀ j, s j = 0) (z : Vec N) : ∏ j, z j ^ s j = 1 :=
  Finset.prod_eq_one fun j _ => by rw [h j, pow_zero]

theorem unscented_exact (N : ℕ) : ExactTo 3 (unscentedPoints N) := by
  refine exactTo_of_mono fun s hs => ?_
  by_cases h0 : ∃ j, s j ≠ 0
  · have hn : (0 : ℝ) < N + 2 := by positivity
    unfold unscentedPoints
    simp only [wsum_cons, wsum_append, wsum_finRange, smul_eq_mul]
    have hz : ∏ j, (Real.sqrt (N + 2) • (0 : Vec N)) j ^ s j = 0 := by
      obtain ⟨j, hj⟩ := h0
      exact Finset.prod_eq_zero (Finset.mem_univ j) (by simp [hj])
    rw [hz, mul_zero, zero_add]
    refine axes_mono ?_ s hs h0
    rw [Real.sq_sqrt hn.le]
    field_simp
  · have h0' : ∀ j, s j = 0 := fun j => by
      by_contra h
      exact h0 ⟨j, h⟩
    simp only [mono_const s h0']
    rw [(unscented_moments N).1]
    exact (Finset.prod_eq_one fun j _ => by rw [h0' j, gm_zero]).symm

theorem cubature_exact (N : ℕ) (hN : N ≠ 0) : ExactTo 3 (cubaturePoints N) := by
  refine exactTo_of_mono fun s hs => ?_
  by_cases h0 : ∃ j, s j ≠ 0
  · have hn : (0 : ℝ) < N := by positivity
    unfold cubaturePoints
    simp only [wsum_append, wsum_finRange, smul_eq_mul]
    refine axes_mono ?_ s hs h0
    rw [Real.sq_sqrt hn.le]
    field_simp
  · have h0' : ∀ j, s j = 0 := fun j => by
      by_contra h
      exact h0 ⟨j, h⟩
    simp only [mono_const s h0']
    rw [(cubature_moments N hN).1]
    exact (Finset.prod_eq_one fun j _ => by rw [h0' j, gm_zero]).symm

/-! ### Affine changes of variables -/

/-- The polynomial `z ↦ p (m + T z)`. -/
noncomputable def affPoly {M : ℕ} (T : Mat M N) (m : Vec M) (p : MvPolynomial (Fin M) ℝ) : MvPolynomial (Fin N) ℝ :=
  MvPolynomial.bind₁ (fun i => MvPolynomial.C (m i) + ∑ j, MvPolynomial.C (T i j) * MvPolynomial.X j) p

theorem affPoly_eval {M : ℕ} (T : Mat M N) (m : Vec M) (p : MvPolynomial (Fin M) ℝ) (z : Vec N) :
    MvPolynomial.eval z (affPoly T m p) = MvPolynomial.eval (m + T *ᵥ z) p := by
  unfold affPoly
  rw [MvPolynomial.eval, MvPolynomial.eval₂Hom_bind₁]
  congr 2
  funext i
  simp [mulVec, dotProduct]

theorem affPoly_degree {M : ℕ} (T : Mat M N) (m : Vec M) (p : MvPolynomial (Fin M) ℝ) :
    (affPoly T m p).totalDegree ≤ p.totalDegree := by
  have hform : ∀ i, (MvPolynomial.C (m i) + ∑ j, MvPolynomial.C (T i j) * MvPolynomial.X j :
      MvPolynomial (Fin N) ℝ).totalDegree ≤ 1 := by
    intro i
    refine le_trans (MvPolynomial.totalDegree_add _ _) (max_le (by simp) ?_)
    refine MvPolynomial.totalDegree_finsetSum_le fun j _ => ?_
    refine le_trans (MvPolynomial.totalDegree_mul _ _) ?_
    simp
  unfold affPoly
  rw [MvPolynomial.bind₁, MvPolynomial.aeval_def, MvPolynomial.eval₂_eq']
  refine MvPolynomial.totalDegree_finsetSum_le fun s hs => ?_
  refine le_trans (MvPolynomial.totalDegree_mul _ _) ?_
  rw [MvPolynomial.algebraMap_eq, MvPolynomial.totalDegree_C, zero_add]
  refine le_trans (MvPolynomial.totalDegree_finsetProd _ _) ?_
  have h1 : ∀ i ∈ Finset.univ, ((MvPolynomial.C (m i) + ∑ j, MvPolynomial.C (T i j) * MvPolynomial.X j :
      MvPolynomial (Fin N) ℝ) ^ s i).totalDegree ≤ s i := by
    intro i _
    refine le_trans (MvPolynomial.totalDegree_pow _ _) ?_
    calc s i * _ ≤ s i * 1 := Nat.mul_le_mul_left _ (hform i)
      _ = s i := Nat.mul_one _
  refine le_trans (Finset.sum_le_sum h1) ?_
  have := MvPolynomial.le_totalDegree hs
  rwa [Finsupp.sum_fintype _ _ (fun _ => rfl)] at this

/-! ### Normal distributions -/

/-- The normal distribution of vectors with mean zero and covariance `S`. -/
noncomputable def normal (S : Mat N N) : Measure (Vec N) :=
  (multivariateGaussian (0 : EuclideanSpace ℝ (Fin N)) S).map WithLp.ofLp

instance (S : Mat N N) : IsProbabilityMeasure (normal S) := by
  unfold normal
  exact Measure.isProbabilityMeasure_map (by fun_prop)

theorem normal_eq_map {S L : Mat N N} (h : L * Lᵀ = S) : normal S = (stdN N).map fun z => L *ᵥ z := by
  have hS : S.PosSemidef := by
    rw [← h]
    have := Matrix.posSemidef_self_mul_conjTranspose L
    rwa [conjTranspose_eq_transpose_of_trivial] at this
  have key : multivariateGaussian (0 : EuclideanSpace ℝ (Fin N)) S =
      (stdGaussian (EuclideanSpace ℝ (Fin N))).map (toEuclideanCLM (𝕜 := ℝ) L) := by
    apply Measure.ext_of_charFun
    ext t
    rw [charFun_multivariateGaussian hS, charFun_apply, integral_map (by fun_prop) (by fun_prop)]
    have hadj : ∀ x, inner ℝ (toEuclideanCLM (𝕜 := ℝ) L x) t = inner ℝ x (toEuclideanCLM (𝕜 := ℝ) Lᵀ t) := by
      intro x
      rw [EuclideanSpace.inner_eq_star_dotProduct, EuclideanSpace.inner_eq_star_dotProduct, star_trivial, star_trivial,
        ofLp_toEuclideanCLM, ofLp_toEuclideanCLM, dotProduct_mulVec, ← mulVec_transpose]
    simp only [hadj]
    rw [← charFun_apply, charFun_stdGaussian]
    congr 1
    have hn : ‖(toEuclideanCLM (𝕜 := ℝ) Lᵀ) t‖ ^ 2 = t.ofLp ⬝ᵥ S *ᵥ t.ofLp := by
      rw [← real_inner_self_eq_norm_sq, EuclideanSpace.inner_eq_star_dotProduct, star_trivial, ofLp_toEuclideanCLM,
        ← h, ← mulVec_mulVec, dotProduct_mulVec _ L, ← mulVec_transpose]
    rw [← hn]
    simp
    ring
  unfold normal
  rw [key, ← map_pi_eq_stdGaussian, Measure.map_map (by fun_prop) (by fun_prop), Measure.map_map (by fun_prop) (by fun_prop)]
  rfl

/-! ### Polynomial functions under a normal distribution -/

/-- `q` is a polynomial of degree at most `d` in the coordinates of its argument. -/
def PolyFn (d : ℕ) (q : Vec N → ℝ) : Prop :=
  ∃ p : MvPolynomial (Fin N) ℝ, p.totalDegree ≤ d ∧ ∀ v, q v = MvPolynomial.eval v p

/-- Every component of `g` is a polynomial of degree at most `d`. -/
def PolyMap {m : ℕ} (d : ℕ) (g : Vec N → Vec m) : Prop := ∀ i, PolyFn d fun v => g v i

theorem PolyFn.mono {d e : ℕ} {q : Vec N → ℝ} (h : PolyFn d q) (hde : d ≤ e) : PolyFn e q := by
  obtain ⟨p, hp, hq⟩ := h
  exact ⟨p, hp.trans hde, hq⟩

theorem PolyFn.const (d : ℕ) (c : ℝ) : PolyFn d (fun _ : Vec N => c) :=
  ⟨MvPolynomial.C c, by simp, by simp⟩

theorem PolyFn.coord (i : Fin N) : PolyFn 1 (fun v : Vec N => v i) :=
  ⟨MvPolynomial.X i, by simp, by simp⟩

theorem PolyFn.sub {d : ℕ} {q r : Vec N → ℝ} (hq : PolyFn d q) (hr : PolyFn d r) : PolyFn d (fun v => q v - r v) := by
  obtain ⟨p, hp, hp'⟩ := hq
  obtain ⟨s, hs, hs'⟩ := hr
  exact ⟨p - s, (MvPolynomial.totalDegree_sub _ _).trans (max_le hp hs), fun v => by simp [hp', hs']⟩

theorem PolyFn.mul {d e : ℕ} {q r : Vec N → ℝ} (hq : PolyFn d q) (hr : PolyFn e r) :
    PolyFn (d + e) (fun v => q v * r v) := by
  obtain ⟨p, hp, hp'⟩ := hq
  obtain ⟨s, hs, hs'⟩ := hr
  exact ⟨p * s, (MvPolynomial.totalDegree_mul _ _).trans (by omega), fun v => by simp [hp', hs']⟩

theorem PolyFn.continuous {d : ℕ} {q : Vec N → ℝ} (hq : PolyFn d q) : Continuous q := by
  obtain ⟨p, _, hp⟩ := hq
  rw [show q = fun v => MvPolynomial.eval v p from funext hp]
  exact MvPolynomial.continuous_eval p

theorem PolyFn.integrable {d : ℕ} {q : Vec N → ℝ} (hq : PolyFn d q) {S L : Mat N N} (h : L * Lᵀ = S) :
    Integrable q (normal S) := by
  obtain ⟨p, _, hp⟩ := hq
  rw [normal_eq_map h, integrable_map_measure (PolyFn.continuous ⟨p, le_rfl, hp⟩).aestronglyMeasurable
    (by fun_prop)]
  have e : (q ∘ fun z => L *ᵥ z) = fun z => MvPolynomial.eval z (affPoly L 0 p) := by
    funext z
    rw [affPoly_eval, zero_add]
    exact hp _
  rw [e]
  exact poly_integrable _

theorem PolyFn.memLp {d : ℕ} {q : Vec N → ℝ} (hq : PolyFn d q) {S L : Mat N N} (h : L * Lᵀ = S) :
    MemLp q 2 (normal S) := by
  rw [memLp_two_iff_integrable_sq hq.continuous.aestronglyMeasurable]
  simpa only [pow_two] using (hq.mul hq).integrable h

theorem PolyMap.sqInt {m d : ℕ} {g : Vec N → Vec m} (hg : PolyMap d g) {S L : Mat N N} (h : L * Lᵀ = S) :
    SqInt (normal S) g := fun i => (hg i).memLp h

/-- A rule exact to degree `d`, moved by a square root of `S`, integrates polynomials of degree `d` against the
normal distribution with covariance `S`. -/
theorem gquad_exact {d : ℕ} {σ : Weighted (Vec N)} (hσ : ExactTo d σ) {S L : Mat N N} (h : L * Lᵀ = S)
    {q : Vec N → ℝ} (hq : PolyFn d q) : wsum σ (fun z => q (L *ᵥ z)) = ∫ v, q v ∂(normal S) := by
  have hc := hq.continuous
  obtain ⟨p, hd, hp⟩ := hq
  rw [normal_eq_map h, integral_map (by fun_prop) hc.aestronglyMeasurable]
  have e : ∀ z, q (L *ᵥ z) = MvPolynomial.eval z (affPoly L 0 p) := by
    intro z
    rw [affPoly_eval, zero_add]
    exact hp _
  simp only [e]
  exact hσ _ ((affPoly_degree _ _ _).trans hd)

theorem gquad_mean {m d : ℕ} {σ : Weighted (Vec N)} (hσ : ExactTo d σ) {S L : Mat N N} (h : L * Lᵀ = S)
    {g : Vec N → Vec m} (hg : PolyMap d g) : wsum σ (fun z => g (L *ᵥ z)) = rvMean (normal S) g := by
  funext i
  have := wsum_linear (LinearMap.proj (R := ℝ) i : Vec m →ₗ[ℝ] ℝ) σ (fun z => g (L *ᵥ z))
  simp only [LinearMap.proj_apply] at this
  rw [← this]
  exact gquad_exact hσ h (hg i)

theorem gquad_cross {m l d e D : ℕ} {σ : Weighted (Vec N)} (hσ : ExactTo D σ) {S L : Mat N N} (h : L * Lᵀ = S)
    {a : Vec N → Vec m} {b : Vec N → Vec l} (ha : PolyMap d a) (hb : PolyMap e b) (hD : d + e ≤ D) :
    wsum σ (fun z => vecMulVec (a (L *ᵥ z)) (b (L *ᵥ z))) = rvCross (normal S) a b := by
  ext i j
  have := wsum_linear (Matrix.entryLinearMap ℝ ℝ i j : Mat m l →ₗ[ℝ] ℝ) σ
    (fun z => vecMulVec (a (L *ᵥ z)) (b (L *ᵥ z)))
  simp only [Matrix.entryLinearMap_apply, vecMulVec_apply] at this
  rw [← this]
  exact gquad_exact hσ h (((ha i).mul (hb j)).mono hD)

theorem normal_sqInt_id {S L : Mat N N} (h : L * Lᵀ = S) : SqInt (normal S) fun v => v :=
  fun i => (PolyFn.coord i).memLp h

/-- `normal S` has mean zero and covariance `S`. -/
theorem normal_moments {S : Mat N N} (hS : S.PosDef) :
    rvMean (normal S) (fun v => v) = 0 ∧ rvCross (normal S) (fun v => v) (fun v => v) = S := by
  obtain ⟨L, _, hL⟩ := chol_ok hS
  obtain ⟨h0, h1, h2⟩ := unscented_moments N
  constructor
  · rw [← gquad_mean (unscented_exact N) hL (g := fun v => v) (fun i => (PolyFn.coord i).mono (by norm_num))]
    exact wsum_mulVec _ _ h1
  · rw [← gquad_cross (unscented_exact N) hL (a := fun v => v) (b := fun v => v) (fun i => PolyFn.coord i)
      (fun i => PolyFn.coord i) (by norm_num)]
    rw [wsum_conj _ _ _ h2, hL]

/-- The degree of exactness of the rule of a method. -/
def ruleDegree (method : String) : ℕ := if method = "gh" then 5 else 3

theorem generate_exact {method : String} {σ : Weighted (Vec N)} (h : generateSigmapoints N method = .ok σ) :
    ExactTo (ruleDegree method) σ := by
  unfold generateSigmapoints at h
  unfold ruleDegree
  split at h
  · rename_i he
    subst he
    cases h
    exact unscented_exact N
  · split at h
    · rename_i he
      subst he
      split at h
      · cases h
      · rename_i hN
        cases h
        exact cubature_exact N hN
    · split at h
      · rename_i he
        subst he
        split at h
        · cases h
        · cases h
          exact gh_exact N
      · cases h

end Verif
