import Verif.Props.LeastSquaresLaw
import Verif.Props.Smoother

/-!
The cost of `BatchEstimator` on linear Gaussian data (C129).
-/

set_option linter.unusedSectionVars false
set_option linter.unusedVariables false

namespace Verif

open Matrix MeasureTheory ProbabilityTheory

variable {Ω : Type} {n : ℕ} {U : Type} [MeasurableSpace Ω] {μ : Measure Ω}

/-- The rows of the terms `ts`. -/
abbrev RowIdx (ts : List (LTerm Ω n)) : Type := Σ i : Fin ts.length, Fin (ts.get i).m

theorem rowIdx_card (ts : List (LTerm Ω n)) : Fintype.card (RowIdx ts) = (ts.map LTerm.m).sum := by
  rw [Fintype.card_sigma]
  simp only [Fintype.card_fin]
  rw [← List.sum_ofFn]
  have : ts.map LTerm.m = List.ofFn fun i => (ts.get i).m := by
    conv_lhs => rw [← List.ofFn_get ts, List.map_ofFn]
    rfl
  rw [this]

theorem mahal_white {m : ℕ} {S L : Mat m m} (hS : S.PosDef) (hL : L * Lᵀ = S) (v : Vec m) : mahal S v = (L⁻¹ *ᵥ v) ⬝ᵥ (L⁻¹ *ᵥ v) := by
  unfold mahal
  rw [← hL, Matrix.mul_inv_rev, ← mulVec_mulVec, dotProduct_mulVec, ← mulVec_transpose, transpose_nonsing_inv, transpose_transpose]

theorem white_one {m : ℕ} {S L : Mat m m} (hS : S.PosDef) (hL : L * Lᵀ = S) : L⁻¹ * S * L⁻¹ᵀ = 1 := by
  have hd : L.det ≠ 0 := by
    have := pd_det hS
    rw [← hL, det_mul] at this
    exact left_ne_zero_of_mul this
  have hu := unit_of_det hd
  have hut : IsUnit Lᵀ.det := by rw [det_transpose]; exact hu
  rw [← hL, transpose_nonsing_inv, ← Matrix.mul_assoc, nonsing_inv_mul _ hu, Matrix.one_mul, mul_nonsing_inv _ hut]

theorem list_sum_get {α : Type} (l : List α) (f : α → ℝ) : (l.map f).sum = ∑ i : Fin l.length, f (l.get i) := by
  rw [← List.sum_ofFn]
  have : l.map f = List.ofFn fun i => f (l.get i) := by
    conv_lhs => rw [← List.ofFn_get l, List.map_ofFn]
    rfl
  rw [this]

theorem rvCross_comm_zero {m k : ℕ} {X : Ω → Vec m} {Y : Ω → Vec k} (h : rvCross μ X Y = 0) : rvCross μ Y X = 0 := by
  ext i j
  have := congrFun (congrFun h j) i
  refine Eq.trans ?_ this
  show ∫ ω, Y ω i * X ω j ∂μ = ∫ ω, X ω j * Y ω i ∂μ
  simp only [mul_comm]

theorem quadObj_congr {ts : List (LTerm Ω n)} {X Y : ℕ → Vec n} (h : ∀ T ∈ ts, T.B X = T.B Y) (ω : Ω) : quadObj ts ω X = quadObj ts ω Y := by
  unfold quadObj
  congr 1
  refine List.map_congr_left fun T hT => ?_
  rw [h T hT]

/-- The states that have the marginals of an objective are together its only minimizer. -/
theorem marginals_min {F : (ℕ → Vec n) → ℝ} {N : ℕ} (hN : 0 < N) {x : ℕ → Vec n} {G : ℕ → Mat n n}
    (hF : ∀ X Y : ℕ → Vec n, (∀ k < N, X k = Y k) → F X = F Y) (h : ∀ k < N, MarginalAt F k (x k) (G k)) :
    (∀ X, F x ≤ F X) ∧ ∀ X, F X = F x → ∀ k < N, X k = x k := by
  obtain ⟨hG0, c0, h0⟩ := h 0 hN
  obtain ⟨X0, -, hX0⟩ := (h0 (x 0)).1
  rw [sub_self, mahal_zero, add_zero] at hX0
  have hlow0 : ∀ X, c0 ≤ F X := fun X => by
    have := (h0 (X 0)).2 ⟨X, rfl, rfl⟩
    linarith [mahal_nonneg hG0 (X 0 - x 0)]
  have huniq : ∀ X, F X = c0 → ∀ k < N, X k = x k := by
    intro X hX k hk
    obtain ⟨hG, c, hc⟩ := h k hk
    obtain ⟨Y, -, hY⟩ := (hc (x k)).1
    rw [sub_self, mahal_zero, add_zero] at hY
    have h1 := (hc (X k)).2 ⟨X, rfl, rfl⟩
    have h2 := hlow0 Y
    by_contra hne
    have := mahal_pos hG (sub_ne_zero.2 hne)
    linarith
  have hx : F x = c0 := by
    rw [hX0]
    exact hF _ _ fun k hk => (huniq X0 hX0.symm k hk).symm
  exact ⟨fun X => by rw [hx]; exact hlow0 X, fun X hX => huniq X (hX.trans hx)⟩

/-- A stacked vector as a trajectory. -/
def spread (N : ℕ) : Vec (N * n) →ₗ[ℝ] (ℕ → Vec n) where
  toFun δ k := blockOf δ k
  map_add' δ δ' := by
    funext k i
    by_cases h : k * n + i.1 < N * n
    · simp only [blockOf, dif_pos h, Pi.add_apply]
    · simp only [blockOf, dif_neg h, Pi.add_apply, add_zero]
  map_smul' s δ := by
    funext k i
    by_cases h : k * n + i.1 < N * n
    · simp only [blockOf, dif_pos h, Pi.smul_apply, RingHom.id_apply]
    · simp only [blockOf, dif_neg h, Pi.smul_apply, RingHom.id_apply, smul_zero]

/-- Objective, trajectory and least value: the least value of a weighted sum of squares over the trajectories of `N` states has the
chi-square distribution with (rows - unknowns) degrees of freedom, and is independent of the error of the trajectory. -/
theorem quad_law [IsProbabilityMeasure μ] {N : ℕ} {ts : List (LTerm Ω n)} (hS : ∀ T ∈ ts, T.S.PosDef) {Z : Ω → ℕ → Vec n}
    (hB : ∀ T ∈ ts, ∀ D : ℕ → Vec n, (∀ k < N, D k = 0) → T.B D = 0)
    (hw : White μ CovRel.exact (ts.map fun T => T.noise Z)) (hg : JointlyGaussian μ (ts.map fun T => T.noise Z))
    {x : Ω → ℕ → Vec n} {G : Ω → ℕ → Mat n n} (hN : 0 < N) (hM : ∀ ω, ∀ k < N, MarginalAt (quadObj ts ω) k (x ω k) (G ω k)) :
    N * n ≤ (ts.map LTerm.m).sum ∧ μ.map (fun ω => quadObj ts ω (x ω)) = chi2 ((ts.map LTerm.m).sum - N * n) ∧
    IndepFun (fun ω (k : Fin N) => x ω k - Z ω k) (fun ω => quadObj ts ω (x ω)) μ := by
  have hSi : ∀ i : Fin ts.length, (ts.get i).S.PosDef := fun i => hS _ (List.get_mem _ _)
  have hch : ∀ i : Fin ts.length, ∃ L : Mat (ts.get i).m (ts.get i).m, L * Lᵀ = (ts.get i).S := fun i => by
    obtain ⟨L, -, hL⟩ := chol_ok (hSi i)
    exact ⟨L, hL⟩
  choose L hL using hch
  obtain ⟨M, hMdef⟩ : ∃ M, M = (ts.map LTerm.m).sum := ⟨_, rfl⟩
  rw [← hMdef]
  let e : RowIdx ts ≃ Fin M := Fintype.equivFinOfCardEq ((rowIdx_card ts).trans hMdef.symm)
  obtain ⟨E, hEdef⟩ : ∃ E : Ω → Vec M, E = fun ω q => ((L (e.symm q).1)⁻¹ *ᵥ ((ts.get (e.symm q).1).B (Z ω) - (ts.get (e.symm q).1).d ω)) (e.symm q).2 :=
    ⟨_, rfl⟩
  let T : Vec (N * n) →ₗ[ℝ] Vec M := LinearMap.pi fun q => (LinearMap.proj (e.symm q).2).comp
    ((Matrix.mulVecLin (L (e.symm q).1)⁻¹).comp ((ts.get (e.symm q).1).B.comp (spread N)))
  obtain ⟨H, hH⟩ : ∃ H : Mat M (N * n), ∀ δ, H *ᵥ δ = T δ := ⟨LinearMap.toMatrix' T, fun δ => LinearMap.toMatrix'_mulVec T δ⟩
  have hobj : ∀ ω δ, quadObj ts ω (Z ω + spread N δ) = (E ω + H *ᵥ δ) ⬝ᵥ (E ω + H *ᵥ δ) := by
    intro ω δ
    unfold quadObj
    rw [list_sum_get, hH]
    show _ = ∑ q, (E ω + T δ) q * (E ω + T δ) q
    rw [← e.sum_comp, Fintype.sum_sigma]
    refine Finset.sum_congr rfl fun i _ => ?_
    rw [mahal_white (hSi i) (hL i)]
    refine Finset.sum_congr rfl fun j _ => ?_
    have h1 : (E ω + T δ) (e ⟨i, j⟩) = ((L i)⁻¹ *ᵥ ((ts.get i).B (Z ω + spread N δ) - (ts.get i).d ω)) j := by
      rw [Pi.add_apply, hEdef]
      show ((L (e.symm (e ⟨i, j⟩)).1)⁻¹ *ᵥ ((ts.get (e.symm (e ⟨i, j⟩)).1).B (Z ω) - (ts.get (e.symm (e ⟨i, j⟩)).1).d ω)) (e.symm (e ⟨i, j⟩)).2 +
        ((L (e.symm (e ⟨i, j⟩)).1)⁻¹ *ᵥ ((ts.get (e.symm (e ⟨i, j⟩)).1).B (spread N δ))) (e.symm (e ⟨i, j⟩)).2 = _
      rw [e.symm_apply_apply]
      show ((L i)⁻¹ *ᵥ ((ts.get i).B (Z ω) - (ts.get i).d ω)) j + ((L i)⁻¹ *ᵥ ((ts.get i).B (spread N δ))) j = _
      rw [← Pi.add_apply, ← mulVec_add, map_add, add_sub_right_comm]
    rw [h1]
  have hcong : ∀ ω, ∀ X Y : ℕ → Vec n, (∀ k < N, X k = Y k) → quadObj ts ω X = quadObj ts ω Y := by
    intro ω X Y h
    refine quadObj_congr (fun T hT => ?_) ω
    have := hB T hT (X - Y) fun k hk => by rw [Pi.sub_apply, h k hk, sub_self]
    rw [map_sub] at this
    exact sub_eq_zero.1 this
  have hmin := fun ω => marginals_min hN (hcong ω) (hM ω)
  have hδ : ∀ ω, quadObj ts ω (Z ω + spread N (stackOf N fun k => x ω k - Z ω k)) = quadObj ts ω (x ω) := by
    intro ω
    refine hcong ω _ _ fun k hk => ?_
    show Z ω k + blockOf (stackOf N fun k => x ω k - Z ω k) k = _
    rw [blockOf_stackOf hk, add_sub_cancel]
  obtain ⟨ω0⟩ := nonempty_of_isProbabilityMeasure μ
  have hinj : Function.Injective H.mulVec := by
    intro a a' haa
    refine sub_eq_zero.1 (blockOf_ext fun k hk => ?_)
    have hz : H *ᵥ (a - a') = 0 := by rw [mulVec_sub]; exact sub_eq_zero.2 haa
    have h1 := hobj ω0 ((stackOf N fun k => x ω0 k - Z ω0 k) + (a - a'))
    rw [mulVec_add, hz, add_zero, ← hobj, hδ] at h1
    have h2 := (hmin ω0).2 _ h1 k hk
    rw [map_add] at h2
    have h3 : Z ω0 k + ((blockOf (stackOf N fun k => x ω0 k - Z ω0 k) k : Vec n) + blockOf (a - a') k) = x ω0 k := h2
    rw [blockOf_stackOf hk, ← add_assoc, add_sub_cancel, add_eq_left] at h3
    rw [h3]
    funext i
    rw [blockOf_apply hk]
    rfl
  have hpd : (Hᵀ * H).PosDef := by
    have := Matrix.PosDef.conjTranspose_mul_self H hinj
    rwa [conjTranspose_eq_transpose_of_trivial] at this
  have hd := pd_det hpd
  have hsol : ∀ ω, (stackOf N fun k => x ω k - Z ω k) = gnDelta (E ω) H := by
    intro ω
    refine gnDelta_unique (E ω) H hd _ ?_
    have h1 := gnDelta_pythagoras (E ω) H hd (stackOf N fun k => x ω k - Z ω k)
    have h2 := (hmin ω).1 (Z ω + spread N (gnDelta (E ω) H))
    rw [← hδ ω, hobj, hobj] at h2
    have h3 : 0 ≤ (H *ᵥ ((stackOf N fun k => x ω k - Z ω k) - gnDelta (E ω) H)) ⬝ᵥ (H *ᵥ ((stackOf N fun k => x ω k - Z ω k) - gnDelta (E ω) H)) :=
      Finset.sum_nonneg fun i _ => mul_self_nonneg _
    linarith
  have hval : ∀ ω, quadObj ts ω (x ω) = (E ω + H *ᵥ gnDelta (E ω) H) ⬝ᵥ (E ω + H *ᵥ gnDelta (E ω) H) := by
    intro ω
    rw [← hδ ω, hobj, hsol]
  have hE : μ.map E = stdN M := by
    have hn : stdN M = normal (1 : Mat M M) := by
      rw [normal_eq_map (L := 1) (by simp)]
      simp only [one_mulVec]
      exact Measure.map_id.symm
    have hmem : ∀ i : Fin ts.length, (ts.get i).noise Z ∈ ts.map fun T => T.noise Z := fun i => List.mem_map.2 ⟨_, List.get_mem _ _, rfl⟩
    have hsq : ∀ i : Fin ts.length, SqInt μ (fun ω => (ts.get i).B (Z ω) - (ts.get i).d ω) := fun i => hw.sq _ (hmem i)
    have hme : ∀ i : Fin ts.length, rvMean μ (fun ω => (ts.get i).B (Z ω) - (ts.get i).d ω) = 0 := fun i => hw.mean _ (hmem i)
    have hco : ∀ i : Fin ts.length, rvCross μ (fun ω => (ts.get i).B (Z ω) - (ts.get i).d ω) (fun ω => (ts.get i).B (Z ω) - (ts.get i).d ω) = (ts.get i).S :=
      fun i => hw.cov _ (hmem i)
    have hun : ∀ i j : Fin ts.length, i ≠ j → rvCross μ (fun ω => (ts.get i).B (Z ω) - (ts.get i).d ω) (fun ω => (ts.get j).B (Z ω) - (ts.get j).d ω) = 0 := by
      have h1 := hw.uncorr
      rw [List.pairwise_map, List.pairwise_iff_get] at h1
      intro i j hij
      rcases lt_or_gt_of_ne hij with h | h
      · exact h1 i j h
      · exact rvCross_comm_zero (h1 j i h)
    rw [hn]
    refine gauss_law hg (fun q => ?_) ?_ ?_
    · rw [hEdef]
      have e1 : (fun ω => ((L (e.symm q).1)⁻¹ *ᵥ ((ts.get (e.symm q).1).B (Z ω) - (ts.get (e.symm q).1).d ω)) (e.symm q).2) =
          ∑ j, (L (e.symm q).1)⁻¹ (e.symm q).2 j • fun ω => ((ts.get (e.symm q).1).noise Z).val ω j := by
        funext ω
        rw [Finset.sum_apply]
        rfl
      rw [e1]
      exact Submodule.sum_mem _ fun j _ => Submodule.smul_mem _ _ (Submodule.subset_span ⟨_, hmem _, j, rfl⟩)
    · funext q
      rw [hEdef]
      have h1 := rvMean_mulVec (hsq (e.symm q).1) (L (e.symm q).1)⁻¹
      rw [hme, mulVec_zero] at h1
      exact congrFun h1 (e.symm q).2
    · ext q q'
      rw [hEdef]
      have h1 : ∀ i i', rvCross μ (fun ω => (L i)⁻¹ *ᵥ ((ts.get i).B (Z ω) - (ts.get i).d ω)) (fun ω => (L i')⁻¹ *ᵥ ((ts.get i').B (Z ω) - (ts.get i').d ω)) =
          (L i)⁻¹ * rvCross μ (fun ω => (ts.get i).B (Z ω) - (ts.get i).d ω) (fun ω => (ts.get i').B (Z ω) - (ts.get i').d ω) * (L i')⁻¹ᵀ := by
        intro i i'
        rw [rvCross_mulVec_left (hsq i) ((hsq i').mulVec _), rvCross_mulVec_right (hsq i') (hsq i), Matrix.mul_assoc]
      have h2 : ∀ (p p' : RowIdx ts), ∫ ω, ((L p.1)⁻¹ *ᵥ ((ts.get p.1).B (Z ω) - (ts.get p.1).d ω)) p.2 *
          ((L p'.1)⁻¹ *ᵥ ((ts.get p'.1).B (Z ω) - (ts.get p'.1).d ω)) p'.2 ∂μ = if p = p' then 1 else 0 := by
        rintro ⟨i, j⟩ ⟨i', j'⟩
        have h3 := congrFun (congrFun (h1 i i') j) j'
        refine Eq.trans h3 ?_
        by_cases hi : i = i'
        · subst hi
          rw [hco, white_one (hSi i) (hL i), one_apply]
          simp
        · rw [hun i i' hi, Matrix.mul_zero, Matrix.zero_mul, if_neg (fun h => hi (congrArg Sigma.fst h))]
          rfl
      refine (h2 (e.symm q) (e.symm q')).trans ?_
      rw [one_apply]
      simp only [e.symm.injective.eq_iff]
  obtain ⟨k1, k2, k3, k4⟩ := lsq_law H hd hE
  refine ⟨k1, ?_, ?_⟩
  · simp only [hval]
    exact k2
  · have h1 : (fun ω (k : Fin N) => x ω k - Z ω k) = (fun δ (k : Fin N) => blockOf δ k.1) ∘ fun ω => gnDelta (E ω) H := by
      funext ω k
      rw [Function.comp_apply, ← hsol]
      exact (blockOf_stackOf k.2 (fun k => x ω k - Z ω k)).symm
    have h2 : (fun ω => quadObj ts ω (x ω)) = fun ω => (E ω + H *ᵥ gnDelta (E ω) H) ⬝ᵥ (E ω + H *ᵥ gnDelta (E ω) H) := funext hval
    rw [h1, h2]
    refine k4.comp (φ := fun (δ : Vec (N * n)) (k : Fin N) => (blockOf δ k.1 : Vec n)) (ψ := id) ?_ measurable_id
    refine measurable_pi_lambda _ fun k => measurable_pi_lambda _ fun i => ?_
    unfold blockOf
    split
    · exact measurable_pi_apply _
    · exact measurable_const


/-! ### The batch estimator -/

section solve
variable (A : Inp U → ℝ → Mat n n) (b : Inp U → ℝ → Vec n) (Q : Inp U → ℝ → Mat n n) (X : ℝ → Ω → Vec n)

/-- Specification: the trajectory of the states in `rs`. -/
noncomputable def trajOf (rs : List (Ω → SWC (Vec n) n)) (ω : Ω) (k : ℕ) : Vec n := (rs[k]?.map fun r => (r ω).state.value).getD 0

theorem procTerms_local : ∀ (us : List (StInp U)) (k : ℕ) (T : LTerm Ω n), T ∈ procTerms A b Q k us → ∀ D : ℕ → Vec n,
    (∀ i < k + us.length, D i = 0) → T.B D = 0
  | [], k, T, h, D, hD => by cases h
  | [_], k, T, h, D, hD => by cases h
  | u :: u' :: us, k, T, h, D, hD => by
    unfold procTerms at h
    rcases List.mem_cons.1 h with rfl | h
    · show D (k + 1) - _ *ᵥ D k = 0
      rw [hD (k + 1) (by simp only [List.length_cons]; omega), hD k (by simp only [List.length_cons]; omega), mulVec_zero, sub_zero]
    · exact procTerms_local (u' :: us) (k + 1) T h D fun i hi => hD i (by simp only [List.length_cons] at hi ⊢; omega)

theorem procTerms_rows : ∀ (us : List (StInp U)) (k : ℕ), ((procTerms (Ω := Ω) A b Q k us).map LTerm.m).sum = (us.length - 1) * n
  | [], k => by simp [procTerms]
  | [_], k => by simp [procTerms]
  | u :: u' :: us, k => by
    unfold procTerms
    rw [List.map_cons, List.sum_cons, procTerms_rows (u' :: us) (k + 1)]
    simp only [List.length_cons, Nat.add_sub_cancel]
    ring

theorem batchTerms_local {x0 : Vec n} {P0 : Mat n n} {us : List (StInp U)} {meas : List (RMeas Ω n)} (hne : 0 < us.length)
    (hm : ∀ y ∈ meas, ∃ u ∈ us, u.stamp = y.stamp) : ∀ T ∈ batchTerms A b Q x0 P0 us meas, ∀ D : ℕ → Vec n,
    (∀ i < us.length, D i = 0) → T.B D = 0 := by
  classical
  intro T hT D hD
  unfold batchTerms at hT
  rcases List.mem_cons.1 hT with rfl | hT
  · exact hD 0 hne
  · rcases List.mem_append.1 hT with hT | hT
    · exact procTerms_local A b Q us 0 T hT D fun i hi => hD i (by omega)
    · obtain ⟨y, hy, rfl⟩ := List.mem_map.1 hT
      obtain ⟨u, hu, hut⟩ := hm y hy
      have hmem : y.stamp ∈ us.map StInp.stamp := List.mem_map.2 ⟨u, hu, hut⟩
      have hlt := List.idxOf_lt_length_of_mem hmem
      rw [List.length_map] at hlt
      show -(y.C *ᵥ D _) = 0
      rw [hD _ hlt, mulVec_zero, neg_zero]

theorem batchTerms_rows {x0 : Vec n} {P0 : Mat n n} {us : List (StInp U)} {meas : List (RMeas Ω n)} (hne : 0 < us.length) :
    ((batchTerms A b Q x0 P0 us meas).map LTerm.m).sum = us.length * n + (meas.map RMeas.m).sum := by
  unfold batchTerms
  rw [List.map_cons, List.sum_cons, List.map_append, List.sum_append, procTerms_rows, List.map_map]
  have h1 : (meas.map (LTerm.m ∘ measTerms us)) = meas.map RMeas.m := rfl
  rw [h1]
  show n + _ = _
  obtain ⟨k, hk⟩ := Nat.exists_eq_succ_of_ne_zero hne.ne'
  rw [hk, Nat.succ_sub_one, Nat.succ_mul]
  ring

variable [IsProbabilityMeasure μ]

/-- C129: linear models, jointly Gaussian noise of the modelled covariances, the prior included. The least value of the batch objective,
the one at the states that `BatchEstimator.solve` returns, has the chi-square distribution with as many degrees of freedom as the
measurements have components, and is independent of the errors of the returned states. -/
theorem C129_batch_cost (hQ : ∀ u dt, 0 < dt → (Q u dt).PosDef) (hn : 0 < n) (rnd : ℝ → ℝ) (cfg : ProbCfg)
    (hs : cfg.solver = "GN") (hit : 0 < cfg.maxIters) (x0 : Vec n) (t0 : ℝ) (P0 : Mat n n) (hP0 : P0.PosDef)
    (inputs us : List (StInp U)) (meas : List (RMeas Ω n)) (hperm : us.Perm inputs) (hsort : us.Pairwise (fun a c => a.stamp < c.stamp))
    (h2 : 2 ≤ us.length) (hfirst : ∀ u, us.head? = some u → u.stamp = t0) (hr : ∀ u ∈ inputs, rnd u.stamp = u.stamp)
    (hm : ∀ y ∈ meas, y.R.PosDef ∧ ∃ u ∈ inputs, u.stamp = y.stamp)
    (hw : White μ CovRel.exact (batchNoises A b Q X x0 t0 P0 us meas)) (hg : JointlyGaussian μ (batchNoises A b Q X x0 t0 P0 us meas)) :
    ∃ rs : List (Ω → SWC (Vec n) n),
      (∀ ω, ∃ res, batchSolve (vecStateOps n) (linProcModel A b Q) rnd cfg ⟨x0, some t0⟩ P0 inputs (meas.map (·.at ω)) = .ok res ∧
        Returned rs ω res) ∧
      rs.length = us.length ∧
      (∀ ω Y, batchObjective A b Q x0 P0 us (meas.map (·.at ω)) (trajOf rs ω) ≤ batchObjective A b Q x0 P0 us (meas.map (·.at ω)) Y) ∧
      μ.map (fun ω => batchObjective A b Q x0 P0 us (meas.map (·.at ω)) (trajOf rs ω)) = chi2 (meas.map RMeas.m).sum ∧
      IndepFun (fun ω (k : Fin us.length) => trajOf rs ω k - X us[k].stamp ω)
        (fun ω => batchObjective A b Q x0 P0 us (meas.map (·.at ω)) (trajOf rs ω)) μ := by
  have hne : 0 < us.length := by omega
  have hm' : ∀ y ∈ meas, ∃ u ∈ us, u.stamp = y.stamp := fun y hy => by
    obtain ⟨v, hv, e⟩ := (hm y hy).2
    exact ⟨v, hperm.mem_iff.2 hv, e⟩
  obtain ⟨rs, h1, h3, h4⟩ := batch_random A b Q hQ hn rnd cfg hs hit x0 t0 P0 hP0 inputs us meas hperm hsort h2 hfirst hr hm
  have hloc := batchTerms_local (x0 := x0) (P0 := P0) A b Q hne hm'
  have hS : ∀ T ∈ batchTerms A b Q x0 P0 us meas, T.S.PosDef := by
    intro T hT
    unfold batchTerms at hT
    rcases List.mem_cons.1 hT with rfl | hT
    · exact hP0
    · rcases List.mem_append.1 hT with hT | hT
      · exact procTerms_pd A b Q hQ us 0 hsort T hT
      · obtain ⟨y, hy, rfl⟩ := List.mem_map.1 hT
        exact (hm y hy).1
  have hno : (batchTerms A b Q x0 P0 us meas).map (fun T => T.noise (stepTruth X us)) = batchNoises A b Q X x0 t0 P0 us meas :=
    batch_noise A b Q (by
      cases us with
      | nil => simp at h2
      | cons v us => exact ⟨v, rfl, hfirst v rfl⟩) hm'
  have hM : ∃ G : ℕ → Mat n n, ∀ ω, ∀ k < us.length, MarginalAt (quadObj (batchTerms A b Q x0 P0 us meas) ω) k (trajOf rs ω k) (G k) := by
    have : ∀ k, ∃ G : Mat n n, k < us.length → ∀ ω, MarginalAt (quadObj (batchTerms A b Q x0 P0 us meas) ω) k (trajOf rs ω k) G := by
      intro k
      by_cases hk : k < us.length
      · have hk' : k < rs.length := by rw [h3]; exact hk
        obtain ⟨u, x, P, g1, g2, g3⟩ := h4 k rs[k] (List.getElem?_eq_getElem hk')
        refine ⟨P, fun _ ω => ?_⟩
        have := g3 ω
        rw [batch_obj] at this
        unfold trajOf
        rw [List.getElem?_eq_getElem hk', g2]
        exact this
      · exact ⟨0, fun h => absurd h hk⟩
    choose G hG using this
    exact ⟨G, fun ω k hk => hG k hk ω⟩
  obtain ⟨G, hG⟩ := hM
  have hcong : ∀ ω, ∀ V Y : ℕ → Vec n, (∀ k < us.length, V k = Y k) →
      quadObj (batchTerms A b Q x0 P0 us meas) ω V = quadObj (batchTerms A b Q x0 P0 us meas) ω Y := by
    intro ω V Y h
    refine quadObj_congr (fun T hT => ?_) ω
    have := hloc T hT (V - Y) fun k hk => by rw [Pi.sub_apply, h k hk, sub_self]
    rw [map_sub] at this
    exact sub_eq_zero.1 this
  obtain ⟨-, k2, k3⟩ := quad_law (μ := μ) (Z := stepTruth X us) hS hloc (hno ▸ hw) (hno ▸ hg) (x := trajOf rs) (G := fun _ => G) hne hG
  rw [batchTerms_rows A b Q hne, Nat.add_sub_cancel_left] at k2
  simp only [batch_obj]
  refine ⟨rs, h1, h3, fun ω Y => (marginals_min hne (hcong ω) (hG ω)).1 Y, k2, ?_⟩
  have e : (fun ω (k : Fin us.length) => trajOf rs ω k - X us[k].stamp ω) = fun ω (k : Fin us.length) => trajOf rs ω k - stepTruth X us ω k := by
    funext ω k
    rw [truth_idx (List.getElem?_eq_getElem k.2)]
    rfl
  rw [e]
  exact k3

/-- C129, as a test: the objective at the returned states exceeds the quantile for `p` with probability `1 - p`. -/
theorem C129_test (hQ : ∀ u dt, 0 < dt → (Q u dt).PosDef) (hn : 0 < n) (rnd : ℝ → ℝ) (cfg : ProbCfg)
    (hs : cfg.solver = "GN") (hit : 0 < cfg.maxIters) (x0 : Vec n) (t0 : ℝ) (P0 : Mat n n) (hP0 : P0.PosDef)
    (inputs us : List (StInp U)) (meas : List (RMeas Ω n)) (hperm : us.Perm inputs) (hsort : us.Pairwise (fun a c => a.stamp < c.stamp))
    (h2 : 2 ≤ us.length) (hfirst : ∀ u, us.head? = some u → u.stamp = t0) (hr : ∀ u ∈ inputs, rnd u.stamp = u.stamp)
    (hm : ∀ y ∈ meas, y.R.PosDef ∧ ∃ u ∈ inputs, u.stamp = y.stamp)
    (hw : White μ CovRel.exact (batchNoises A b Q X x0 t0 P0 us meas)) (hg : JointlyGaussian μ (batchNoises A b Q X x0 t0 P0 us meas))
    {ppf : ℝ → ℝ → ℝ} (hppf : IsPpf ppf) (hpos : 0 < (meas.map RMeas.m).sum) (p : ℝ) (hp : 0 < p) (hp1 : p < 1) :
    ∃ rs : List (Ω → SWC (Vec n) n),
      (∀ ω, ∃ res, batchSolve (vecStateOps n) (linProcModel A b Q) rnd cfg ⟨x0, some t0⟩ P0 inputs (meas.map (·.at ω)) = .ok res ∧
        Returned rs ω res) ∧
      μ {ω | ppf p (meas.map RMeas.m).sum < batchObjective A b Q x0 P0 us (meas.map (·.at ω)) (trajOf rs ω)} = ENNReal.ofReal (1 - p) := by
  obtain ⟨rs, h1, -, -, h3, -⟩ := C129_batch_cost A b Q X hQ hn rnd cfg hs hit x0 t0 P0 hP0 inputs us meas hperm hsort h2 hfirst hr hm hw hg
  refine ⟨rs, h1, ?_⟩
  have hme : AEMeasurable (fun ω => batchObjective A b Q x0 P0 us (meas.map (·.at ω)) (trajOf rs ω)) μ := by
    by_contra h
    rw [Measure.map_of_not_aemeasurable h] at h3
    exact IsProbabilityMeasure.ne_zero (chi2 (meas.map RMeas.m).sum) h3.symm
  have h4 := chi2_above hppf hpos hp hp1
  rw [← h3, Measure.map_apply_of_aemeasurable hme measurableSet_Ioi] at h4
  exact h4

end solve

/-- The hypotheses of C129 hold for the random walk of C121 with its one measurement: one degree of freedom. -/
example : ∃ rs : List (Vec 4 → SWC (Vec 1) 1), (∀ ω, ∃ res,
      batchSolve (vecStateOps 1) (linProcModel (U := Unit) (fun _ _ => 1) (fun _ _ => 0) (fun _ _ => 1)) id ⟨"GN", 1, none, none, none, 1⟩ ⟨0, some 0⟩ 1 walkSteps
        ([walkMeas].map (·.at ω)) = .ok res ∧ Returned rs ω res) ∧
    (normal (1 : Mat 4 4)).map (fun ω => batchObjective (fun _ _ => 1) (fun _ _ => 0) (fun _ _ => 1) 0 1 walkSteps ([walkMeas].map (·.at ω)) (trajOf rs ω)) = chi2 1 := by
  obtain ⟨rs, h1, -, -, h3, -⟩ := C129_batch_cost (U := Unit) (μ := normal (1 : Mat 4 4)) (fun _ _ => 1) (fun _ _ => 0) (fun _ _ => 1) walkTruth
    (fun _ _ _ => PosDef.one) one_pos id ⟨"GN", 1, none, none, none, 1⟩ rfl (by norm_num) 0 0 1 PosDef.one walkSteps walkSteps [walkMeas] (List.Perm.refl _)
    (by simp [walkSteps]; norm_num) (by simp [walkSteps]) (by rintro u hu; cases hu; rfl) (fun _ _ => rfl)
    (fun y hy => by
      rw [List.mem_singleton.1 hy]
      exact ⟨PosDef.one, ⟨(), 1 / 2⟩, by simp [walkSteps], rfl⟩) walk_batch_white walk_batch_gauss
  exact ⟨rs, h1, h3⟩

end Verif
