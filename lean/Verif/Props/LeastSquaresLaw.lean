import Verif.Props.GaussNoise
import Verif.Props.LinearTotal
import Mathlib.Analysis.InnerProductSpace.PiL2

/-!
The distribution of the cost and of the estimate of a linear least squares problem with Gaussian data (C128).
-/

set_option linter.unusedSectionVars false
set_option linter.unusedVariables false

namespace Verif

open Matrix MeasureTheory ProbabilityTheory

variable {Ω : Type} [MeasurableSpace Ω] {μ : Measure Ω}

/-- Columns that complete those of a matrix of full column rank: orthonormal, orthogonal to them, and spanning the rest of the space. -/
theorem complement_basis {m n : ℕ} (H : Mat m n) (hd : (Hᵀ * H).det ≠ 0) :
    n ≤ m ∧ ∃ B : Mat m (m - n), Bᵀ * B = 1 ∧ Hᵀ * B = 0 ∧ B * Bᵀ = 1 - H * (Hᵀ * H)⁻¹ * Hᵀ := by
  have hinj : Function.Injective H.mulVec := by
    intro a b hab
    have h1 : (Hᵀ * H) *ᵥ (a - b) = 0 := by
      rw [← mulVec_mulVec, mulVec_sub, show H *ᵥ a = H *ᵥ b from hab, sub_self, mulVec_zero]
    have h2 : a - b = 0 := by
      have := congrArg ((Hᵀ * H)⁻¹ *ᵥ ·) h1
      simpa [mulVec_mulVec, nonsing_inv_mul _ (unit_of_det hd)] using this
    exact sub_eq_zero.1 h2
  let T := toEuclideanLin (𝕜 := ℝ) H
  have hT : Function.Injective T := by
    intro a b hab
    have := congrArg WithLp.ofLp hab
    exact WithLp.ofLp_injective 2 (hinj this)
  have hrank : Module.finrank ℝ (LinearMap.range T) = n := by
    rw [LinearMap.finrank_range_of_inj hT]; simp
  have hsum := Submodule.finrank_add_finrank_orthogonal (LinearMap.range T)
  rw [hrank, finrank_euclideanSpace_fin] at hsum
  have hle : n ≤ m := by omega
  have hW : Module.finrank ℝ (LinearMap.range T)ᗮ = m - n := by omega
  let b := (stdOrthonormalBasis ℝ (LinearMap.range T)ᗮ).reindex (finCongr hW)
  obtain ⟨B, hB⟩ : ∃ B : Mat m (m - n), B = of fun i j => (b j : EuclideanSpace ℝ (Fin m)) i := ⟨_, rfl⟩
  have hspan : ∀ y : Vec m, Hᵀ *ᵥ y = 0 → B *ᵥ (Bᵀ *ᵥ y) = y := by
    intro y hy
    have hmem : (WithLp.toLp 2 y : EuclideanSpace ℝ (Fin m)) ∈ (LinearMap.range T)ᗮ := by
      rw [Submodule.mem_orthogonal]
      rintro _ ⟨x, rfl⟩
      rw [EuclideanSpace.inner_eq_star_dotProduct, star_trivial]
      show y ⬝ᵥ H *ᵥ x.ofLp = 0
      rw [dotProduct_mulVec, ← mulVec_transpose, hy, zero_dotProduct]
    have h1 := congrArg (fun w : (LinearMap.range T)ᗮ => (w : EuclideanSpace ℝ (Fin m)).ofLp) (b.sum_repr' ⟨_, hmem⟩)
    simp only [AddSubmonoidClass.coe_finsetSum, Submodule.coe_smul] at h1
    funext i
    have h2 := congrFun h1 i
    rw [WithLp.ofLp_sum, Finset.sum_apply] at h2
    refine Eq.trans ?_ h2
    show ∑ j, B i j * (Bᵀ *ᵥ y) j = _
    refine Finset.sum_congr rfl fun j _ => ?_
    rw [hB, mul_comm]
    show _ = inner ℝ (b j) ⟨WithLp.toLp 2 y, hmem⟩ * (b j : EuclideanSpace ℝ (Fin m)).ofLp i
    rw [Submodule.coe_inner, EuclideanSpace.inner_eq_star_dotProduct, star_trivial, dotProduct_comm]
    rfl
  have hortho : Hᵀ * B = 0 := by
    ext i j
    have h1 := (b j).2
    rw [Submodule.mem_orthogonal] at h1
    have h2 := h1 (T (EuclideanSpace.single i 1)) ⟨_, rfl⟩
    rw [EuclideanSpace.inner_eq_star_dotProduct, star_trivial, dotProduct_comm] at h2
    have h3 : (T (EuclideanSpace.single i 1)).ofLp = H.col i := by
      show H *ᵥ (Pi.single i 1) = _
      rw [mulVec_single_one]
    rw [h3] at h2
    rw [Matrix.mul_apply, hB]
    exact h2
  refine ⟨hle, B, ?_, hortho, ?_⟩
  · rw [hB]
    ext i j
    have h1 := orthonormal_iff_ite.1 b.orthonormal i j
    rw [Matrix.mul_apply, one_apply]
    rw [Submodule.coe_inner, EuclideanSpace.inner_eq_star_dotProduct, star_trivial, dotProduct_comm] at h1
    exact h1
  · have hu := unit_of_det hd
    have hP : Hᵀ * (1 - H * (Hᵀ * H)⁻¹ * Hᵀ) = 0 := by
      rw [Matrix.mul_sub, Matrix.mul_one, ← Matrix.mul_assoc, ← Matrix.mul_assoc, mul_nonsing_inv _ hu, Matrix.one_mul, sub_self]
    have hBH : Bᵀ * H = 0 := by
      have := congrArg transpose hortho
      rwa [transpose_mul, transpose_transpose, transpose_zero] at this
    have h1 : B * Bᵀ * (1 - H * (Hᵀ * H)⁻¹ * Hᵀ) = 1 - H * (Hᵀ * H)⁻¹ * Hᵀ := by
      refine Matrix.mulVec_injective (funext fun x => ?_)
      rw [← mulVec_mulVec, ← mulVec_mulVec]
      refine hspan _ ?_
      rw [mulVec_mulVec, hP, zero_mulVec]
    rw [← h1, Matrix.mul_sub, Matrix.mul_one, Matrix.mul_assoc B Bᵀ, ← Matrix.mul_assoc Bᵀ, ← Matrix.mul_assoc Bᵀ, hBH, Matrix.zero_mul,
      Matrix.zero_mul, Matrix.mul_zero, sub_zero]

theorem std_gauss_space {m : ℕ} {E : Ω → Vec m} (hE : μ.map E = stdN m) :
    IsProbabilityMeasure μ ∧ SqInt μ E ∧ rvMean μ E = 0 ∧ rvCross μ E E = 1 ∧
      ∀ g ∈ Submodule.span ℝ (Set.range fun i ω => E ω i), HasGaussianLaw g μ := by
  have hm : AEMeasurable E μ := by
    by_contra h
    rw [Measure.map_of_not_aemeasurable h] at hE
    exact IsProbabilityMeasure.ne_zero (stdN m) hE.symm
  have hn : stdN m = normal (1 : Mat m m) := by
    rw [normal_eq_map (L := 1) (by simp)]
    simp only [one_mulVec]
    exact Measure.map_id.symm
  have hprob : IsProbabilityMeasure μ := by
    refine ⟨?_⟩
    have h1 := congrArg (fun ν : Measure (Vec m) => ν Set.univ) hE
    simp only [measure_univ] at h1
    rwa [Measure.map_apply_of_aemeasurable hm MeasurableSet.univ, Set.preimage_univ] at h1
  have hG : ∀ g ∈ Submodule.span ℝ (Set.range fun i ω => E ω i), HasGaussianLaw g μ := by
    intro g hg
    have : ∃ ℓ : Vec m →L[ℝ] ℝ, g = fun ω => ℓ (E ω) := by
      induction hg using Submodule.span_induction with
      | mem g hg =>
        obtain ⟨i, rfl⟩ := hg
        exact ⟨ContinuousLinearMap.proj (R := ℝ) (φ := fun _ : Fin m => ℝ) i, rfl⟩
      | zero => exact ⟨0, rfl⟩
      | add f g _ _ hf hg =>
        obtain ⟨a, rfl⟩ := hf
        obtain ⟨c, rfl⟩ := hg
        exact ⟨a + c, rfl⟩
      | smul k f _ hf =>
        obtain ⟨a, rfl⟩ := hf
        exact ⟨k • a, rfl⟩
    obtain ⟨ℓ, rfl⟩ := this
    have h1 := (normal_gauss (1 : Mat m m) ℓ).isGaussian_map
    rw [← hn, ← hE, AEMeasurable.map_map_of_aemeasurable (by fun_prop) hm] at h1
    exact ⟨h1⟩
  have hmv : ∀ i, (fun ω => E ω i) ∈ Submodule.span ℝ (Set.range fun i ω => E ω i) := fun i => Submodule.subset_span ⟨i, rfl⟩
  obtain ⟨n1, n2⟩ := normal_moments (S := (1 : Mat m m)) Matrix.PosDef.one
  refine ⟨hprob, fun i => (hG _ (hmv i)).memLp_two, ?_, ?_, hG⟩
  · rw [← n1, ← hn, ← hE]
    funext i
    exact (integral_map hm (f := fun v : Vec m => v i) (measurable_pi_apply i).aestronglyMeasurable).symm
  · rw [← n2, ← hn, ← hE]
    ext i j
    exact (integral_map hm (f := fun v : Vec m => v i * v j) (by fun_prop)).symm

/-- The least-squares fit of a standard normal vector: the squared distance has the chi-square distribution with `rows - columns` degrees of
freedom, the solution is normal with the inverse information matrix for covariance, and the two are independent. -/
theorem lsq_law {m n : ℕ} (H : Mat m n) (hd : (Hᵀ * H).det ≠ 0) {E : Ω → Vec m} (hE : μ.map E = stdN m) :
    n ≤ m ∧ μ.map (fun ω => (E ω + H *ᵥ gnDelta (E ω) H) ⬝ᵥ (E ω + H *ᵥ gnDelta (E ω) H)) = chi2 (m - n) ∧
    μ.map (fun ω => gnDelta (E ω) H) = normal (Hᵀ * H)⁻¹ ∧
    IndepFun (fun ω => gnDelta (E ω) H) (fun ω => (E ω + H *ᵥ gnDelta (E ω) H) ⬝ᵥ (E ω + H *ᵥ gnDelta (E ω) H)) μ := by
  obtain ⟨hle, B, hB1, hB2, hB3⟩ := complement_basis H hd
  obtain ⟨hp, hs, h0, h1, hG⟩ := std_gauss_space hE
  have hu := unit_of_det hd
  have hmem : ∀ {k : ℕ} (M : Mat k m) (i : Fin k), (fun ω => (M *ᵥ E ω) i) ∈ Submodule.span ℝ (Set.range fun i ω => E ω i) := by
    intro k M i
    have e : (fun ω => (M *ᵥ E ω) i) = ∑ j, M i j • fun ω => E ω j := by
      funext ω
      rw [Finset.sum_apply]
      rfl
    rw [e]
    exact Submodule.sum_mem _ fun j _ => Submodule.smul_mem _ _ (Submodule.subset_span ⟨j, rfl⟩)
  have hmean : ∀ {k : ℕ} (M : Mat k m), rvMean μ (fun ω => M *ᵥ E ω) = 0 := by
    intro k M
    rw [rvMean_mulVec hs, h0, mulVec_zero]
  have hcross : ∀ {k l : ℕ} (M : Mat k m) (N : Mat l m), rvCross μ (fun ω => M *ᵥ E ω) (fun ω => N *ᵥ E ω) = M * Nᵀ := by
    intro k l M N
    rw [rvCross_mulVec_left hs (hs.mulVec N), rvCross_mulVec_right hs hs, h1, Matrix.one_mul]
  have hδ : ∀ ω, gnDelta (E ω) H = (-((Hᵀ * H)⁻¹ * Hᵀ)) *ᵥ E ω := by
    intro ω
    unfold gnDelta
    rw [mulVec_neg, mulVec_mulVec, neg_mulVec]
  have hr : ∀ ω, (E ω + H *ᵥ gnDelta (E ω) H) ⬝ᵥ (E ω + H *ᵥ gnDelta (E ω) H) = (Bᵀ *ᵥ E ω) ⬝ᵥ (Bᵀ *ᵥ E ω) := by
    intro ω
    have e : E ω + H *ᵥ gnDelta (E ω) H = B *ᵥ (Bᵀ *ᵥ E ω) := by
      rw [hδ, mulVec_mulVec, mulVec_mulVec, hB3, sub_mulVec, one_mulVec, Matrix.mul_neg, neg_mulVec, ← Matrix.mul_assoc, sub_eq_add_neg]
    rw [e, dotProduct_mulVec, ← mulVec_transpose, mulVec_mulVec, hB1, one_mulVec]
  have hZ : μ.map (fun ω => Bᵀ *ᵥ E ω) = normal 1 := gauss_law hG (hmem _) (hmean _) (by rw [hcross, transpose_transpose, hB1])
  simp only [hr]
  simp only [hδ]
  refine ⟨hle, ?_, ?_, ?_⟩
  · have := quad_chi2 (P := (1 : Mat (m - n) (m - n))) Matrix.PosDef.one hZ
    simpa using this
  · refine gauss_law hG (hmem _) (hmean _) ?_
    rw [hcross, transpose_neg, Matrix.neg_mul, Matrix.mul_neg, neg_neg, transpose_mul, transpose_transpose, transpose_nonsing_inv, transpose_mul, transpose_transpose,
      Matrix.mul_assoc, ← Matrix.mul_assoc Hᵀ, mul_nonsing_inv _ hu, Matrix.mul_one]
  · have hi := gauss_indep hG (Z := fun i ω => ((-((Hᵀ * H)⁻¹ * Hᵀ)) *ᵥ E ω) i) (W := fun j ω => (Bᵀ *ᵥ E ω) j) (hmem _) (hmem _)
      (fun i => congrFun (hmean _) i) (fun i j => by
        have := congrFun (congrFun (hcross (-((Hᵀ * H)⁻¹ * Hᵀ)) Bᵀ) i) j
        rw [transpose_transpose, Matrix.neg_mul, Matrix.mul_assoc, hB2, Matrix.mul_zero, neg_zero] at this
        exact this)
    exact hi.comp measurable_id (sqSum_measurable _)


variable {K : Type} [DecidableEq K]

/-! ### Problems that differ in their data only -/

/-- The error of a residual at an assignment of the variables (`[]` if it cannot be evaluated). -/
def errAt (v : List (K × List ℝ)) (r : Residual K (List ℝ)) : List ℝ := ((lookupAll v r.keys >>= r.error).toOption).getD []

/-- The errors of all residuals of a problem, one below the other. -/
def stackErr (v : List (K × List ℝ)) (rs : List (Residual K (List ℝ))) : List ℝ := rs.flatMap (errAt v)

/-- Two linear residuals with the same Jacobians: they differ in the offset (the data) only. -/
def SameJacs (r r' : Residual K (List ℝ)) : Prop :=
  ∃ (ks : List K) (Js : List DMat) (n : ℕ) (b b' : ℕ → ℝ), r = linRes ks Js n b ∧ r' = linRes ks Js n b'

/-- Two problems with variables of the same names and sizes, the same constants and the same linear residuals up to their offsets; the
initial values and the data may differ. -/
structure Alike (P Q : Prob K (List ℝ)) : Prop where
  vars : SameShape P.varsInit Q.varsInit
  const : P.constKeys = Q.constKeys
  dict : P.varSlices = Q.varSlices
  residuals : List.Forall₂ SameJacs P.residuals Q.residuals

theorem colSlices_shape {const : List K} : ∀ {v v' : List (K × List ℝ)}, SameShape v v' → ∀ (i : ℕ) (d : List (K × Slice)),
    colSlices vecVarOps const v i d = colSlices vecVarOps const v' i d
  | [], v', h, i, d => by
    have : v' = [] := by simpa [SameShape] using h.1
    rw [this]
  | (k, x) :: v, [], h, i, d => by simp [SameShape] at h
  | (k, x) :: v, (k', y) :: v', h, i, d => by
    obtain ⟨h1, h2⟩ := h
    simp only [List.map_cons, List.cons.injEq] at h1 h2
    obtain ⟨rfl, h1⟩ := h1
    have hl : vecVarOps.dof x = vecVarOps.dof y := h2.1.symm
    unfold colSlices
    rw [colSlices_shape ⟨h1, h2.2⟩, colSlices_shape ⟨h1, h2.2⟩, hl]

theorem freeVars_shape {α : Type} {const : List K} (F : K → ℕ → α) : ∀ {v v' : List (K × List ℝ)}, SameShape v v' →
    (freeVars const v).map (fun p => F p.1 (vecVarOps.dof p.2)) = (freeVars const v').map fun p => F p.1 (vecVarOps.dof p.2)
  | [], v', h => by
    have : v' = [] := by simpa [SameShape] using h.1
    rw [this]
  | (k, x) :: v, [], h => by simp [SameShape] at h
  | (k, x) :: v, (k', y) :: v', h => by
    obtain ⟨h1, h2⟩ := h
    simp only [List.map_cons, List.cons.injEq] at h1 h2
    obtain ⟨rfl, h1⟩ := h1
    have hl : vecVarOps.dof x = vecVarOps.dof y := h2.1.symm
    have ih := freeVars_shape (const := const) F (v := v) (v' := v') ⟨h1, h2.2⟩
    unfold freeVars at ih ⊢
    by_cases hk : k' ∈ const
    · rw [List.filter_cons_of_neg (by simpa using hk), List.filter_cons_of_neg (by simpa using hk)]
      exact ih
    · rw [List.filter_cons_of_pos (by simpa using hk), List.filter_cons_of_pos (by simpa using hk)]
      simp only [List.map_cons, ih, hl]

theorem lookupAll_ok_iff {v : List (K × List ℝ)} : ∀ {ks : List K} {xs : List (List ℝ)}, lookupAll v ks = .ok xs → ∀ k ∈ ks, ∃ x, v.lookup k = some x
  | [], xs, h, k, hk => by cases hk
  | q :: ks, xs, h, k, hk => by
    unfold lookupAll at h
    obtain ⟨x, h1, h⟩ := bind_ok h
    obtain ⟨xs', h2, h⟩ := bind_ok h
    rcases List.mem_cons.1 hk with rfl | hk
    · unfold dictGet at h1
      split at h1
      · exact ⟨_, by assumption⟩
      · cases h1
    · exact lookupAll_ok_iff h2 k hk

/-- Row slices: the same for problems that are alike. -/
theorem rowSlices_alike {v v' : List (K × List ℝ)} (hv : SameShape v v') : ∀ {rs rs' : List (Residual K (List ℝ))} {i : ℕ} {t t' : List Slice × ℕ},
    List.Forall₂ SameJacs rs rs' → rowSlices v rs i = .ok t → rowSlices v' rs' i = .ok t' → t = t'
  | [], _, i, t, t', .nil, h, h' => by
    cases h
    cases h'
    rfl
  | r :: rs, r' :: rs', i, t, t', .cons h1 h2, h, h' => by
    obtain ⟨ks, Js, n, b, b', rfl, rfl⟩ := h1
    unfold rowSlices at h h'
    obtain ⟨xs, g1, h⟩ := bind_ok h
    obtain ⟨e, g2, h⟩ := bind_ok h
    obtain ⟨⟨sl, tot⟩, g3, h⟩ := bind_ok h
    obtain ⟨xs', g1', h'⟩ := bind_ok h'
    obtain ⟨e', g2', h'⟩ := bind_ok h'
    obtain ⟨⟨sl', tot'⟩, g3', h'⟩ := bind_ok h'
    cases g2
    cases g2'
    have hl : (linErr n b Js xs).length = n := by simp [linErr]
    have hl' : (linErr n b' Js xs').length = n := by simp [linErr]
    rw [hl] at g3 h
    rw [hl'] at g3' h'
    have := rowSlices_alike hv h2 g3 g3'
    cases this
    cases h
    cases h'
    rfl

/-- Where the rows of residual `i` are in the stacked error. -/
theorem stack_get {P : Prob K (List ℝ)} (hP : LinearProblem P) {v : List (K × List ℝ)} (hv : SameShape P.varsInit v) :
    ∀ {rs : List (Residual K (List ℝ))} {idx : ℕ} {sl : List Slice} {tot : ℕ}, (∀ r ∈ rs, r ∈ P.residuals) →
      rowSlices P.varsInit rs idx = .ok (sl, tot) → tot = idx + (stackErr v rs).length ∧
      ∀ (i : ℕ) (ks : List K) (Js : List DMat) (n : ℕ) (b : ℕ → ℝ) (s : Slice) (a : ℕ), rs[i]? = some (linRes ks Js n b) → sl[i]? = some s →
        a < n → idx ≤ s.start ∧ (stackErr v rs).getD (s.start + a - idx) 0 = (linErr n b Js (ks.map (valOf v))).getD a 0
  | [], idx, sl, tot, hm, h => by
    cases h
    exact ⟨by simp [stackErr], fun i ks Js n b s a hi => by simp at hi⟩
  | r :: rs, idx, sl, tot, hm, h => by
    obtain ⟨ks, Js, n, b, rfl, hnd, hlen, hsh⟩ := hP.residuals r (hm r (by simp))
    obtain ⟨l1, l2, l3⟩ := linear_eval (b := b) hP ⟨rfl, rfl⟩ hlen hsh (v := P.varsInit)
    obtain ⟨m1, m2, m3⟩ := linear_eval (b := b) hP hv hlen hsh
    unfold rowSlices at h
    obtain ⟨xs, g1, h⟩ := bind_ok h
    obtain ⟨e, g2, h⟩ := bind_ok h
    obtain ⟨⟨sl', tot'⟩, g3, h⟩ := bind_ok h
    cases g2
    have hl : (linErr n b Js xs).length = n := by simp [linErr]
    rw [hl] at g3 h
    cases h
    obtain ⟨ih1, ih2⟩ := stack_get hP hv (fun r hr => hm r (by simp [hr])) g3
    have herr : errAt v (linRes ks Js n b) = linErr n b Js (ks.map (valOf v)) := by
      unfold errAt
      rw [m1]
      show ((Except.ok _ >>= (linRes ks Js n b).error : Except Err (List ℝ)).toOption).getD [] = _
      simp only [bind, Except.bind, m2]
      rfl
    have hst : stackErr v (linRes ks Js n b :: rs) = linErr n b Js (ks.map (valOf v)) ++ stackErr v rs := by
      unfold stackErr
      rw [List.flatMap_cons, herr]
    refine ⟨by rw [hst, List.length_append, m3, ih1]; omega, ?_⟩
    intro i ks' Js' n' b' s a hi hs ha
    rw [hst]
    cases i with
    | zero =>
      simp only [List.getElem?_cons_zero, Option.some.injEq] at hi hs
      obtain ⟨rfl, hE, -⟩ := linRes_inj hi
      have hn : n = n' := by
        have := congrArg List.length (hE [])
        simpa [linErr] using this
      subst hn hs
      refine ⟨le_refl _, ?_⟩
      rw [← hE, show idx + a - idx = a by omega, List.getD_eq_getElem?_getD, List.getElem?_append_left (by rw [m3]; exact ha),
        ← List.getD_eq_getElem?_getD]
    | succ i =>
      simp only [List.getElem?_cons_succ] at hi hs
      obtain ⟨j1, j2⟩ := ih2 i ks' Js' n' b' s a hi hs ha
      refine ⟨by omega, ?_⟩
      rw [← j2, List.getD_eq_getElem?_getD, List.getElem?_append_right (by rw [m3]; omega), ← List.getD_eq_getElem?_getD, m3]
      congr 1
      omega

theorem dirOf_single {n : ℕ} (sl : List (K × Slice)) (p : Fin n) (k : K) (c : ℕ) :
    dirOf sl (Pi.single p 1) k c = if ((sl.lookup k).getD ⟨0, 0⟩).start + c = p.1 then 1 else 0 := by
  unfold dirOf
  by_cases h : ((sl.lookup k).getD ⟨0, 0⟩).start + c < n
  · rw [dif_pos h, Pi.single_apply]
    simp only [Fin.ext_iff]
  · rw [dif_neg h, if_neg]
    have := p.2
    omega

/-- A linear problem can be linearized at every assignment of the right shape. -/
theorem linear_linearize_at {P P1 : Prob K (List ℝ)} (hP : LinearProblem P) (h : P.started vecVarOps = .ok P1)
    {v : List (K × List ℝ)} (hv : SameShape P.varsInit v) :
    ∃ (e : Vec P1.sizeErr) (H : Mat P1.sizeErr P1.sizeState) (c : ℝ), P1.linearize v = .ok ⟨P1.sizeErr, P1.sizeState, e, H, c⟩ := by
  obtain ⟨e1, e2, e3, e4, e5, e6, -, -⟩ := started_fields h
  obtain ⟨L, hL⟩ := linear_linearize hP h
  obtain ⟨L', hL'⟩ := linearize_transfer (v' := v) hL (by
    intro p hp xs err jacs q1 q2 q3
    rw [e4, e5] at hp
    obtain ⟨ks, Js, n, b, hr, hnd, hlen, hs⟩ := hP.residuals p.1 (List.of_mem_zip hp).1
    obtain ⟨r, ls⟩ := p
    simp only at hr q1 q2 q3 ⊢
    subst hr
    obtain ⟨m1, m2, m3⟩ := linear_eval (b := b) hP hv hlen hs
    obtain ⟨l1, l2, l3⟩ := linear_eval (b := b) hP ⟨rfl, rfl⟩ hlen hs (v := P.varsInit)
    rw [l1] at q1; cases q1
    rw [l2] at q2; cases q2
    exact ⟨_, _, m1, m2, by rw [m3, l3], q3⟩)
  obtain ⟨m', n', eL, HL, cL⟩ := L'
  obtain ⟨hm', hn'⟩ := linearize_shape hL'
  simp only at hm' hn'
  subst hm' hn'
  exact ⟨_, _, _, hL'⟩

theorem lin_cast {L : Lin} {m n m' n' : ℕ} {e : Vec m} {H : Mat m n} {c : ℝ} (hL : L = ⟨m, n, e, H, c⟩) (hm : m = m') (hn : n = n') :
    ∃ (e' : Vec m') (H' : Mat m' n'), L = ⟨m', n', e', H', c⟩ ∧ (∀ (q : Fin m) (q' : Fin m'), q.1 = q'.1 → e' q' = e q) ∧
      ∀ (q : Fin m) (q' : Fin m') (p : Fin n) (p' : Fin n'), q.1 = q'.1 → p.1 = p'.1 → H' q' p' = H q p := by
  subst hm hn
  refine ⟨e, H, hL, fun q q' h => ?_, fun q q' p p' h h' => ?_⟩
  · rw [Fin.ext h]
  · rw [Fin.ext h, Fin.ext h']

/-- The linearizations of all problems of a family of problems that are alike have the same Jacobian; the error is the stack of the errors
of the residuals. -/
theorem alike_linearize {Q Q1 : Prob K (List ℝ)} (hQ : LinearProblem Q) (hQ1 : Q.started vecVarOps = .ok Q1) :
    ∃ H : Mat Q1.sizeErr Q1.sizeState, ∀ P P1 : Prob K (List ℝ), LinearProblem P → Alike Q P → P.started vecVarOps = .ok P1 →
      P1.sizeErr = Q1.sizeErr ∧ P1.sizeState = Q1.sizeState ∧ P1.varSlices = Q1.varSlices ∧
      ∀ v, SameShape P.varsInit v → Q1.sizeErr = (stackErr v P.residuals).length ∧
        ∃ c, P1.linearize v = .ok ⟨Q1.sizeErr, Q1.sizeState, fun q : Fin Q1.sizeErr => (stackErr v P.residuals).getD q.1 0, H, c⟩ := by
  obtain ⟨e0, H0, c0, hL0⟩ := linear_linearize_at hQ hQ1 (v := Q.varsInit) ⟨rfl, rfl⟩
  obtain ⟨q1, q2, q3⟩ := started_slices hQ1
  refine ⟨H0, fun P P1 hP ha hP1 => ?_⟩
  obtain ⟨p1, p2, p3⟩ := started_slices hP1
  have hrow := rowSlices_alike ha.vars ha.residuals q1 p1
  have hsl : P1.resSlices = Q1.resSlices := (congrArg Prod.fst hrow).symm
  have hse : P1.sizeErr = Q1.sizeErr := (congrArg Prod.snd hrow).symm
  have hvs : P1.varSlices = Q1.varSlices := by rw [p2, q2, ← ha.const, ← ha.dict, colSlices_shape ha.vars]
  have hss : P1.sizeState = Q1.sizeState := by rw [p3, q3, ← ha.const, ← ha.dict, colSlices_shape ha.vars]
  refine ⟨hse, hss, hvs, fun v hv => ?_⟩
  obtain ⟨s1, s2⟩ := stack_get hP hv (fun r hr => hr) p1
  obtain ⟨e, H, c, hL⟩ := linear_linearize_at hP hP1 hv
  obtain ⟨e', H', hL', he', hH'⟩ := lin_cast rfl hse hss (e := e) (H := H) (c := c)
  refine ⟨by rw [← hse, s1]; omega, c, ?_⟩
  rw [hL, hL']
  have hE : e' = fun q : Fin Q1.sizeErr => (stackErr v P.residuals).getD q.1 0 := by
    funext q'
    obtain ⟨ks, Js, n, b, i, a, s, r1, r2, r3, r4, r5, r6⟩ := linear_rows hP hP1 hv hL ⟨q'.1, by rw [hse]; exact q'.2⟩
    rw [he' ⟨q'.1, by rw [hse]; exact q'.2⟩ q' rfl, r5, ← (s2 i ks Js n b s a r1 r2 r4).2]
    congr 1
    simp only at r3
    omega
  have hH : H' = H0 := by
    ext q' p'
    have hq : q'.1 < P1.sizeErr := by rw [hse]; exact q'.2
    have hp : p'.1 < P1.sizeState := by rw [hss]; exact p'.2
    obtain ⟨ks, Js, n, b, i, a, s, r1, r2, r3, r4, r5, r6⟩ := linear_rows hP hP1 hv hL ⟨q'.1, hq⟩
    obtain ⟨ks', Js', n', b', i', a', s', t1, t2, t3, t4, t5, t6⟩ := linear_rows hQ hQ1 ⟨rfl, rfl⟩ hL0 q'
    simp only at r3
    rw [hH' ⟨q'.1, hq⟩ q' ⟨p'.1, hp⟩ p' rfl rfl]
    have f1 := r6 (Pi.single ⟨p'.1, hp⟩ 1)
    have f2 := t6 (Pi.single p' 1)
    rw [mulVec_single_one] at f1 f2
    refine f1.trans (Eq.trans ?_ f2.symm)
    obtain ⟨-, rows2, -, -, -, rows6⟩ := C37_rows vecVarOps Q Q1 hQ1
    have hlenQ : ∀ {ks : List K} {Js : List DMat} {n : ℕ} {b : ℕ → ℝ} {i : ℕ} {s : Slice}, Q.residuals[i]? = some (linRes ks Js n b) →
        Q1.resSlices[i]? = some s → s.stop = s.start + n := by
      intro ks Js n b i s w1 w2
      obtain ⟨xs0, e0, s0, z1, z2, z3, z4⟩ := rows2 i _ w1
      rw [w2] at z3; cases z3
      cases z2
      rw [z4]; simp [linErr]
    -- the residual of `Q` with the index of the one of `P`
    have hi : i < Q.residuals.length := by
      rw [ha.residuals.length_eq]
      exact (List.getElem?_eq_some_iff.1 r1).1
    have hsame := (List.forall₂_iff_get.1 ha.residuals).2 i hi (List.getElem?_eq_some_iff.1 r1).1
    obtain ⟨ks2, Js2, n2, b2, b3, u1, u2⟩ := hsame
    have r1' : Q.residuals[i]? = some (linRes ks2 Js2 n2 b2) := by
      rw [List.getElem?_eq_getElem hi]
      exact congrArg some u1
    have r1'' : P.residuals[i]? = some (linRes ks2 Js2 n2 b3) := by
      rw [List.getElem?_eq_getElem (List.getElem?_eq_some_iff.1 r1).1]
      exact congrArg some u2
    rw [r1] at r1''
    obtain ⟨rfl, hE1, hJ1⟩ := linRes_inj (Option.some.inj r1'')
    have hn2 : n = n2 := by
      have := congrArg List.length (hE1 [])
      simpa [linErr] using this
    subst hn2
    rw [hsl] at r2
    have hst := hlenQ r1' r2
    have hst' := hlenQ t1 t2
    obtain ⟨i0, -, huni⟩ := rows6 q' q'.2
    have hii : i = i' := (huni i ⟨s, r2, by omega, by omega⟩).trans (huni i' ⟨s', t2, by omega, by omega⟩).symm
    subst hii
    rw [r2] at t2; cases t2
    have haa : a = a' := by omega
    subst haa
    rw [r1'] at t1
    obtain ⟨rfl, -, hJ2⟩ := linRes_inj (Option.some.inj t1)
    have hj1 : linJacs P.constKeys ks Js = linJacs P.constKeys ks Js2 := hJ1 _
    have hj2 : linJacs P.constKeys ks Js2 = linJacs P.constKeys ks Js' := hJ2 _
    rw [hj1, hj2, ha.const, hvs]
    simp only [dirOf_single]
    exact congrArg List.sum (freeVars_shape (const := P.constKeys) (fun k d => ∑ c ∈ Finset.range d,
      jacOf ks (linJacs P.constKeys ks Js') k a c * if ((Q1.varSlices.lookup k).getD ⟨0, 0⟩).start + c = p'.1 then 1 else 0) ha.vars).symm
  rw [hE, hH]

theorem gnDelta_shift {m n : ℕ} (e : Vec m) (H : Mat m n) (hd : (Hᵀ * H).det ≠ 0) (δ : Vec n) :
    gnDelta e H = δ + gnDelta (e + H *ᵥ δ) H := by
  have h : (Hᵀ * H)⁻¹ *ᵥ (Hᵀ *ᵥ (H *ᵥ δ)) = δ := by
    rw [mulVec_mulVec, mulVec_mulVec, Matrix.mul_assoc, nonsing_inv_mul _ (unit_of_det hd), one_mulVec]
  unfold gnDelta
  rw [mulVec_neg, mulVec_neg, mulVec_add, mulVec_add, h]
  abel

theorem gram_pd {m n : ℕ} {H : Mat m n} (hd : (Hᵀ * H).det ≠ 0) : (Hᵀ * H).PosDef := by
  have h := Matrix.posSemidef_conjTranspose_mul_self H
  rw [conjTranspose_eq_transpose_of_trivial] at h
  exact h.posDef_iff_isUnit.2 ((Matrix.isUnit_iff_isUnit_det _).2 (isUnit_iff_ne_zero.2 hd))

/-- Gauss-Newton returns only if the information matrix at the initial values is invertible. -/
theorem gn_det {S : Type} {o : VarOps S} {P P1 P' : Prob K S} (hs : P.cfg.solver = "GN") (hit : 0 < P.cfg.maxIters)
    (hP1 : P.started o = .ok P1) (h : P.solve o = .ok P') {L : Lin} (hL : P1.linearize P.varsInit = .ok L) : L.A.det ≠ 0 := by
  obtain ⟨P1', hP1', h'⟩ := solve_GN hs h
  rw [hP1] at hP1'
  obtain rfl : P1 = P1' := Except.ok.inj hP1'
  obtain ⟨e1, e2, e3, e4, e5, e6, -, -⟩ := started_fields hP1
  unfold solveGN at h'
  obtain ⟨L', h2, h'⟩ := bind_ok h'
  obtain ⟨s, h3, h'⟩ := bind_ok h'
  rw [e6, hL] at h2
  cases h2
  obtain ⟨N, hN⟩ : ∃ N, P1.cfg.maxIters = N + 1 := ⟨P1.cfg.maxIters - 1, by rw [e1]; omega⟩
  rw [hN] at h3
  unfold iterLoop at h3
  obtain ⟨r, hr, h3⟩ := bind_ok h3
  unfold gnStep at hr
  rw [if_neg (by simp [isConverged])] at hr
  obtain ⟨δ, g1, hr⟩ := bind_ok hr
  exact (spsolve_ok g1).1

/-- **C128.** Linear least squares with data that is right on average. All the problems `P ω` have the same variables, constants and
Jacobians; the data and the initial values are random. If the stacked error of the residuals at the true values of the variables is a
standard normal vector, then after Gauss-Newton: twice the cost has the chi-square distribution with as many degrees of freedom as there
are rows more than unknowns; the error of the estimate is normal with mean zero and a covariance whose blocks are what
`get_covariance_block` returns; and the two are independent. -/
theorem C128_least_squares (P P' : Ω → Prob K (List ℝ)) (hlin : ∀ ω, LinearProblem (P ω)) (hs : ∀ ω, (P ω).cfg.solver = "GN")
    (hit : ∀ ω, 0 < (P ω).cfg.maxIters) (hcov : ∀ ω, (P ω).cov = none) (ha : ∀ ω ω', Alike (P ω) (P ω'))
    (hsolve : ∀ ω, (P ω).solve vecVarOps = .ok (P' ω)) (truth : List (K × List ℝ)) (ht : ∀ ω, SameShape (P ω).varsInit truth)
    (hc : ∀ ω, ∀ k ∈ (P ω).constKeys, truth.lookup k = (P ω).varsInit.lookup k) {m d : ℕ}
    (hm : ∀ ω, (stackErr truth (P ω).residuals).length = m)
    (hd : ∀ ω, ((freeVars (P ω).constKeys (P ω).varsInit).map fun p => p.2.length).sum = d)
    (hE : μ.map (fun ω (q : Fin m) => (stackErr truth (P ω).residuals).getD q.1 0) = stdN m) :
    ∃ (A : Mat d d) (cost : Ω → ℝ) (err : Ω → Vec d), d ≤ m ∧ A.PosDef ∧
      (∀ ω, totalCost (P' ω).vars ((P ω).residuals.zip (P ω).losses) = .ok (cost ω)) ∧
      (∀ ω k s x, k ∉ (P ω).constKeys → (P' ω).varSlices.lookup k = some s → truth.lookup k = some x →
        ∃ y, (P' ω).vars.lookup k = some y ∧ y.length = x.length ∧
          ∀ (c : ℕ) (p : Fin d), c < x.length → s.start + c = p.1 → y.getD c 0 - x.getD c 0 = err ω p) ∧
      (∀ ω k1 k2 s1 s2, (P' ω).varSlices.lookup k1 = some s1 → (P' ω).varSlices.lookup k2 = some s2 →
        ((P' ω).getCovarianceBlock k1 k2).map Prod.fst = .ok (some (SqMat.block ⟨d, A⁻¹⟩ s1 s2))) ∧
      μ.map (fun ω => 2 * cost ω) = chi2 (m - d) ∧ μ.map err = normal A⁻¹ ∧ IndepFun err (fun ω => 2 * cost ω) μ := by
  have hprob := (std_gauss_space hE).1
  obtain ⟨ω0⟩ := nonempty_of_isProbabilityMeasure μ
  obtain ⟨Q1, hQ1⟩ := linear_started (hlin ω0)
  obtain ⟨H, hH⟩ := alike_linearize (hlin ω0) hQ1
  have hsd : Q1.sizeState = d := by
    rw [← hd ω0]
    exact (C37_columns vecVarOps _ _ hQ1 (hlin ω0).keys).2.1
  have hall := fun ω => linear_started (hlin ω)
  choose P1 hP1 using hall
  have hH' := fun ω => hH (P ω) (P1 ω) (hlin ω) (ha ω0 ω) (hP1 ω)
  have hsm : Q1.sizeErr = m := by rw [← hm ω0]; exact ((hH' ω0).2.2.2 truth (ht ω0)).1
  have hX : ∃ (m' d' : ℕ) (H' : Mat m' d') , m' = m ∧ d' = d ∧ ∀ ω, (P1 ω).sizeState = d' ∧ (P1 ω).varSlices = Q1.varSlices ∧
      ∀ v, SameShape (P ω).varsInit v → ∃ c, (P1 ω).linearize v = .ok ⟨m', d', fun q : Fin m' => (stackErr v (P ω).residuals).getD q.1 0, H', c⟩ :=
    ⟨_, _, H, hsm, hsd, fun ω => ⟨(hH' ω).2.1, (hH' ω).2.2.1, fun v hv => ((hH' ω).2.2.2 v hv).2⟩⟩
  clear hH hH' H
  obtain ⟨m', d', H, rfl, rfl, hH⟩ := hX
  clear hsm hsd
  have key : ∀ ω, (Hᵀ * H).det ≠ 0 ∧ (P' ω).info = some ⟨d', Hᵀ * H⟩ ∧ (P' ω).varSlices = Q1.varSlices ∧ (P' ω).cov = none ∧
      (P' ω).vars = moveAll (P ω).constKeys Q1.varSlices
        (gnDelta (fun q : Fin m' => (stackErr truth (P ω).residuals).getD q.1 0) H) truth ∧
      totalCost (P' ω).vars ((P ω).residuals.zip (P ω).losses) = .ok (1 / 2 *
        (((fun q : Fin m' => (stackErr truth (P ω).residuals).getD q.1 0) + H *ᵥ gnDelta (fun q : Fin m' => (stackErr truth (P ω).residuals).getD q.1 0) H) ⬝ᵥ
        ((fun q : Fin m' => (stackErr truth (P ω).residuals).getD q.1 0) + H *ᵥ gnDelta (fun q : Fin m' => (stackErr truth (P ω).residuals).getD q.1 0) H))) := by
    intro ω
    obtain ⟨h1, h2, h3⟩ := hH ω
    obtain ⟨e1, e2, e3, e4, e5, e6, -, -⟩ := started_fields (hP1 ω)
    obtain ⟨c, hL⟩ := h3 (P ω).varsInit ⟨rfl, rfl⟩
    obtain ⟨ct, hLt⟩ := h3 truth (ht ω)
    have hdet : (Hᵀ * H).det ≠ 0 := gn_det (hs ω) (hit ω) (hP1 ω) (hsolve ω) hL
    obtain ⟨hm1, hn1⟩ := linearize_shape hL
    simp only at hm1 hn1
    clear hE hm hd hprob
    obtain ⟨et, het⟩ : ∃ et, et = fun q : Fin m' => (stackErr truth (P ω).residuals).getD q.1 0 := ⟨_, rfl⟩
    obtain ⟨e, he⟩ : ∃ e, e = fun q : Fin m' => (stackErr (P ω).varsInit (P ω).residuals).getD q.1 0 := ⟨_, rfl⟩
    rw [← het] at hLt ⊢
    rw [← he] at hL
    clear hH h3 het he
    subst hm1 hn1
    have haff := linear_affine (hlin ω) (hP1 ω) hL
    obtain ⟨hinfo, hvs, hcv, -⟩ := C40_information vecVarOps _ _ _ (hs ω) (hP1 ω) (hsolve ω) _ _ _ H haff
    obtain ⟨hfin, -⟩ := C40_gn_affine vecVarOps _ _ _ (hs ω) (hit ω) (hP1 ω) (hsolve ω) _ _ _ H haff hdet
    obtain ⟨δ, hδ⟩ := move_surjective (hlin ω) (hP1 ω) (ht ω) (hc ω)
    have hfit := linear_fit (hlin ω) (hP1 ω)
    have h4 := haff.lin δ truth (by rw [correct_vec δ hfit, e3, hδ])
    rw [hLt] at h4
    have het : et = e + H *ᵥ δ := by
      have := Except.ok.inj h4
      injection this
    have hsh := gnDelta_shift e H hdet δ
    rw [← het] at hsh
    have hres : e + H *ᵥ gnDelta e H = et + H *ᵥ gnDelta et H := by
      rw [hsh, mulVec_add, ← add_assoc, ← het]
    have hv : (P' ω).vars = moveAll (P ω).constKeys Q1.varSlices (gnDelta et H) truth := by
      rw [correct_vec _ hfit, e3] at hfin
      rw [← Except.ok.inj hfin, hsh, ← moveAll_add, hδ, h2]
    refine ⟨hdet, hinfo, hvs.trans h2, hcv.trans (hcov ω), hv, ?_⟩
    have h5 := linearize_cost (haff.lin _ _ hfin)
    rwa [e4, e5, hres] at h5
  obtain ⟨hdet, -⟩ := key ω0
  obtain ⟨hle, k1, k2, k3⟩ := lsq_law H hdet hE
  refine ⟨Hᵀ * H, _, _, hle, gram_pd hdet, fun ω => (key ω).2.2.2.2.2, ?_, ?_, ?_, k2, ?_⟩
  · intro ω k s x hk hsl hx
    obtain ⟨-, -, g3, -, g5, -⟩ := key ω
    rw [g3] at hsl
    rw [g5, moveAll_lookup, hx]
    refine ⟨_, rfl, ?_, fun c p hcx hp => ?_⟩
    · beta_reduce
      rw [if_neg hk]; simp [moveVec]
    · beta_reduce
      rw [if_neg hk, hsl]
      have hl : c < (moveVec (gnDelta (fun q : Fin m' => (stackErr truth (P ω).residuals).getD q.1 0) H) s.start x).length := by simpa [moveVec] using hcx
      show (moveVec _ s.start x).getD c 0 - _ = _
      rw [List.getD_eq_getElem?_getD, List.getElem?_eq_getElem hl, List.getD_eq_getElem?_getD, List.getElem?_eq_getElem hcx]
      show (moveVec _ s.start x)[c] - x[c] = _
      rw [moveVec_get _ _ _ _ hl hcx, dif_pos (by rw [hp]; exact p.2), add_sub_cancel_left]
      congr 1
      exact Fin.ext hp
  · intro ω k1 k2 s1 s2 h1 h2
    obtain ⟨-, g2, g3, g4, -, -⟩ := key ω
    rw [C41_first_query (P' ω) ⟨d', Hᵀ * H⟩ g2 hdet g4 k1 k2 s1 s2 h1 h2]
    rfl
  · rw [← k1]
    congr 1
    funext ω
    ring
  · refine (k3.congr (Filter.EventuallyEq.refl _ _) (Filter.Eventually.of_forall fun ω => ?_))
    show _ = 2 * (1 / 2 * _)
    ring

/-- **C128.** The chi-square test of the cost: twice the cost exceeds the quantile for `p` with probability `1 - p`. -/
theorem C128_test {q : ℝ → ℝ → ℝ} (hq : IsPpf q) {m d : ℕ} (hmd : d < m) {cost : Ω → ℝ} (hc : μ.map (fun ω => 2 * cost ω) = chi2 (m - d))
    {p : ℝ} (h0 : 0 < p) (h1 : p < 1) : μ {ω | q p ((m : ℝ) - d) < 2 * cost ω} = ENNReal.ofReal (1 - p) := by
  have hm : AEMeasurable (fun ω => 2 * cost ω) μ := by
    by_contra h
    rw [Measure.map_of_not_aemeasurable h] at hc
    exact IsProbabilityMeasure.ne_zero (chi2 (m - d)) hc.symm
  have h2 := chi2_above hq (k := m - d) (by omega) h0 h1
  rw [← hc, Measure.map_apply_of_aemeasurable hm measurableSet_Ioi, Nat.cast_sub hmd.le] at h2
  exact h2

/-! ### A concrete family: two measurements of one number -/

/-- `x` is measured twice with unit variance; the true value is `3`. -/
noncomputable def twiceProb (ω : Vec 2) : Prob ℕ (List ℝ) where
  cfg := ⟨"GN", 5, none, none, none, 1⟩
  varsInit := [(7, [ω 0])]
  constKeys := []
  residuals := [linRes [7] [⟨1, 1, fun _ _ => 1⟩] 1 fun _ => ω 0 - 3, linRes [7] [⟨1, 1, fun _ _ => 1⟩] 1 fun _ => ω 1 - 3]
  losses := [l2Loss, l2Loss]
  vars := []
  varSlices := []
  resSlices := []
  sizeErr := 0
  sizeState := 0
  costHistory := []
  info := none
  cov := none

theorem twice_linear (ω : Vec 2) : LinearProblem (twiceProb ω) where
  keys := by simp [twiceProb]
  losses := rfl
  residuals := by
    intro r hr
    have hh : ∃ b, r = linRes [7] [⟨1, 1, fun _ _ => 1⟩] 1 b := by
      simp only [twiceProb, List.mem_cons, List.not_mem_nil, or_false] at hr
      rcases hr with h | h <;> exact ⟨_, h⟩
    obtain ⟨b, hb⟩ := hh
    refine ⟨[7], [⟨1, 1, fun _ _ => 1⟩], 1, b, hb, by simp, rfl, ?_⟩
    intro t k J h1 h2
    cases t with
    | succ t => simp at h1
    | zero =>
      simp only [List.getElem?_cons_zero, Option.some.injEq] at h1 h2
      subst h1 h2
      exact ⟨rfl, [ω 0], rfl, rfl⟩

theorem twice_solve (ω : Vec 2) : ∃ P', (twiceProb ω).solve vecVarOps = .ok P' := by
  refine C40_returns (twiceProb ω) { twiceProb ω with
      vars := [(7, [ω 0])]
      varSlices := [(7, ⟨0, 1⟩)]
      resSlices := [⟨0, 1⟩, ⟨1, 2⟩]
      sizeErr := 2
      sizeState := 1 } (twice_linear ω) rfl (by simp [twiceProb]) ?_
    ⟨2, 1, ![ω 0 - 3 + ω 0, ω 1 - 3 + ω 0], fun _ _ => 1, 1 / 2 * ((ω 0 - 3 + ω 0) * (ω 0 - 3 + ω 0) + (ω 1 - 3 + ω 0) * (ω 1 - 3 + ω 0))⟩ ?_ ?_ one_pos
  · simp [Prob.started, Prob.computeSize, twiceProb, rowSlices, lookupAll, dictGet, linRes, linErr, colSlices, vecVarOps,
      dictSet, bind, Except.bind, List.lookup, pure, Except.pure]
  · simp [Prob.linearize, twiceProb, asmLoop, lookupAll, dictGet, linRes, linErr, bind, Except.bind, List.lookup, pure,
      Except.pure, pyGet, setSeg, Slice.len, placeJacs, DMat.setBlock, DMat.scale, DMat.zeros, l2Loss, listNorm]
    congr 1
    · funext i
      fin_cases i <;> simp
    · funext i j
      fin_cases i <;> simp
    · rw [mul_assoc, mul_assoc, Real.mul_self_sqrt (mul_self_nonneg _), Real.mul_self_sqrt (mul_self_nonneg _)]
      ring
  · rw [Matrix.det_fin_one]
    show (∑ i : Fin 2, (1 : ℝ) * 1) ≠ 0
    norm_num

/-- The hypotheses of C128 hold for it: twice the cost has the chi-square distribution with one degree of freedom. -/
example : ∃ (cost : Vec 2 → ℝ) (P' : Vec 2 → Prob ℕ (List ℝ)), (∀ ω, (twiceProb ω).solve vecVarOps = .ok (P' ω)) ∧
    (∀ ω, totalCost (P' ω).vars ((twiceProb ω).residuals.zip (twiceProb ω).losses) = .ok (cost ω)) ∧
    (stdN 2).map (fun ω => 2 * cost ω) = chi2 1 := by
  choose P' hP' using twice_solve
  have hstack : ∀ ω : Vec 2, stackErr [(7, [3])] (twiceProb ω).residuals = [ω 0, ω 1] := by
    intro ω
    simp [stackErr, errAt, twiceProb, linRes, lookupAll, dictGet, List.lookup, linErr, bind, Except.bind, pure, Except.pure, Except.toOption]
  obtain ⟨A, cost, err, -, -, h1, -, -, h2, -⟩ := C128_least_squares (μ := stdN 2) twiceProb P' twice_linear (fun _ => rfl) (fun _ => by simp [twiceProb])
    (fun _ => rfl) (fun ω ω' => ⟨⟨rfl, rfl⟩, rfl, rfl, .cons ⟨_, _, _, _, _, rfl, rfl⟩ (.cons ⟨_, _, _, _, _, rfl, rfl⟩ .nil)⟩) hP' [(7, [3])]
    (fun _ => ⟨rfl, rfl⟩) (fun ω k hk => by simp [twiceProb] at hk) (m := 2) (d := 1) (fun ω => by rw [hstack]; rfl)
    (fun ω => by simp [twiceProb, freeVars]) (by
      have e : (fun (ω : Vec 2) (q : Fin 2) => (stackErr [(7, [3])] (twiceProb ω).residuals).getD q.1 0) = id := by
        funext ω q
        rw [hstack]
        fin_cases q <;> rfl
      rw [e, Measure.map_id])
  exact ⟨cost, P', hP', h1, h2⟩

end Verif
