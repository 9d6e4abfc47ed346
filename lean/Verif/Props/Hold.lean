import Verif.Props.Outliers

/-!
C138: holding variables at their estimates.
-/

set_option linter.unusedVariables false
set_option linter.unusedSectionVars false
set_option linter.unusedSimpArgs false

namespace Verif

open Matrix

variable {K : Type} [DecidableEq K]

/-! ### A linear problem in coordinates -/

/-- Everything about a linear problem in the coordinates `δ` of its free variables. -/
theorem linear_coords {P : Prob K (List ℝ)} (hP : LinearProblem P) :
    ∃ (P1 : Prob K (List ℝ)) (e : Vec P1.sizeErr) (H : Mat P1.sizeErr P1.sizeState) (c : ℝ), P.started vecVarOps = .ok P1 ∧
      P1.linearize P.varsInit = .ok ⟨P1.sizeErr, P1.sizeState, e, H, c⟩ ∧ AffineProb vecVarOps P1 P.varsInit P1.sizeErr P1.sizeState e H ∧
      SlicesFit P.constKeys P1.varSlices P1.sizeState P.varsInit ∧
      ∀ δ : Vec P1.sizeState, totalCost (moveAll P.constKeys P1.varSlices δ P.varsInit) (P.residuals.zip P.losses) =
        .ok (1 / 2 * ((e + H *ᵥ δ) ⬝ᵥ (e + H *ᵥ δ))) := by
  obtain ⟨P1, h1⟩ := linear_started hP
  obtain ⟨L, hL⟩ := linear_linearize hP h1
  obtain ⟨e1, e2, e3, e4, e5, e6, -, -⟩ := started_fields h1
  obtain ⟨m, n, e, H, c⟩ := L
  obtain ⟨hm, hn⟩ := linearize_shape hL
  simp only at hm hn
  subst hm hn
  have ha := linear_affine hP h1 hL
  have hfit := linear_fit hP h1
  refine ⟨P1, e, H, c, h1, hL, ha, by rw [← e3]; exact hfit, fun δ => ?_⟩
  have := linearize_cost (ha.lin δ _ (correct_vec δ hfit))
  rw [e3, e4, e5] at this
  exact this

/-- The component of `δ` that belongs to component `i` of the free variable `k`. -/
theorem moveAll_entry {n : ℕ} {const : List K} {vs : List (K × Slice)} {v0 : List (K × List ℝ)} (δ : Vec n) {k : K} {x : List ℝ} {s : Slice}
    (hx : v0.lookup k = some x) (hk : k ∉ const) (hs : vs.lookup k = some s) (h2 : s.stop = s.start + x.length) (h3 : s.stop ≤ n) {i : ℕ}
    (hi : i < x.length) (hb : s.start + i < n) :
    (valOf (moveAll const vs δ v0) k).getD i 0 = x.getD i 0 + δ ⟨s.start + i, hb⟩ := by
  unfold valOf
  rw [moveAll_lookup, hx, Option.map_some, Option.getD_some, if_neg hk, hs, Option.getD_some]
  have hlen : (moveVec δ s.start x).length = x.length := by simp [moveVec]
  rw [List.getD_eq_getElem?_getD, List.getD_eq_getElem?_getD, List.getElem?_eq_getElem (by rw [hlen]; exact hi),
    List.getElem?_eq_getElem hi, Option.getD_some, Option.getD_some, moveVec_get _ _ _ _ _ hi, dif_pos hb]

/-- The coordinates of an assignment are unique. -/
theorem moveAll_inj {P P1 : Prob K (List ℝ)} (hP : LinearProblem P) (h : P.started vecVarOps = .ok P1) {δ δ' : Vec P1.sizeState}
    (he : moveAll P.constKeys P1.varSlices δ P.varsInit = moveAll P.constKeys P1.varSlices δ' P.varsInit) : δ = δ' := by
  obtain ⟨e1, e2, e3, e4, e5, e6, -, -⟩ := started_fields h
  obtain ⟨-, -, huniq⟩ := C37_columns vecVarOps P P1 h hP.keys
  have hfit := linear_fit hP h
  rw [e3] at hfit
  funext c
  obtain ⟨k, ⟨⟨x, hx⟩, s, hs1, hs2, hs3⟩, -⟩ := huniq c.1 c.2
  unfold freeVars at hx
  rw [List.mem_filter] at hx
  have hk : k ∉ P.constKeys := by simpa using hx.2
  have hl := lookup_mem hP.keys hx.1
  obtain ⟨s', f1, f2, f3⟩ := hfit (k, x) hx.1 hk
  simp only at f1 f2
  rw [hs1] at f1
  cases f1
  have hi : c.1 - s.start < x.length := by omega
  have hb : s.start + (c.1 - s.start) < P1.sizeState := by have := c.2; omega
  have q1 := moveAll_entry δ hl hk hs1 f2 f3 hi hb
  have q2 := moveAll_entry δ' hl hk hs1 f2 f3 hi hb
  rw [he, q2] at q1
  have hc : (⟨s.start + (c.1 - s.start), hb⟩ : Fin P1.sizeState) = c := Fin.ext (by simp; omega)
  rw [hc] at q1
  exact (add_left_cancel q1).symm

theorem moveAll_const {n : ℕ} {const : List K} {vs : List (K × Slice)} {v0 : List (K × List ℝ)} (δ : Vec n) {k : K} (hk : k ∈ const) :
    (moveAll const vs δ v0).lookup k = v0.lookup k := by
  rw [moveAll_lookup]
  cases v0.lookup k with
  | none => rfl
  | some x => rw [Option.map_some, if_pos hk]

/-! ### The variance of a combination -/

/-- The variance of `Σ_k Σ_i W k i * x_k[i]`, `k` in `F`, from the covariance blocks. -/
noncomputable def comboVar (C : K → K → DMat) (F : List K) (W : K → ℕ → ℝ) : ℝ :=
  (F.map fun k1 => (F.map fun k2 => ∑ i ∈ Finset.range (C k1 k2).rows, ∑ j ∈ Finset.range (C k1 k2).cols,
    W k1 i * (C k1 k2).get i j * W k2 j).sum).sum

/-- One variable's share of a combination as a vector. -/
def segVec (n : ℕ) (s : Slice) (w : ℕ → ℝ) : Vec n := fun c => if s.start ≤ c.1 ∧ c.1 < s.stop then w (c.1 - s.start) else 0

theorem segVec_dot {n : ℕ} {s : Slice} (h1 : s.start ≤ s.stop) (h2 : s.stop ≤ n) (w : ℕ → ℝ) (z : Vec n) :
    segVec n s w ⬝ᵥ z = ∑ i ∈ Finset.range (s.stop - s.start), w i * (if h : s.start + i < n then z ⟨s.start + i, h⟩ else 0) := by
  have e1 : segVec n s w ⬝ᵥ z = ∑ c ∈ Finset.range n, (if s.start ≤ c ∧ c < s.stop then w (c - s.start) * (if h : c < n then z ⟨c, h⟩ else 0) else 0) := by
    rw [Finset.sum_range]
    refine Finset.sum_congr rfl fun c _ => ?_
    unfold segVec
    rw [dif_pos c.2]
    split
    · rfl
    · rw [zero_mul]
  rw [e1, ← Finset.sum_filter]
  have e2 : (Finset.range n).filter (fun c => s.start ≤ c ∧ c < s.stop) = (Finset.range (s.stop - s.start)).map (addLeftEmbedding s.start) := by
    ext c
    simp only [Finset.mem_filter, Finset.mem_range, Finset.mem_map, addLeftEmbedding_apply]
    constructor
    · rintro ⟨a, b, c'⟩
      exact ⟨c - s.start, by omega, by omega⟩
    · rintro ⟨i, hi, rfl⟩
      omega
  rw [e2, Finset.sum_map]
  refine Finset.sum_congr rfl fun i _ => ?_
  simp only [addLeftEmbedding_apply, Nat.add_sub_cancel_left]

theorem dot_list_sum {n : ℕ} {ι : Type} (l : List ι) (f : ι → Vec n) (v : Vec n) : (l.map f).sum ⬝ᵥ v = (l.map fun p => f p ⬝ᵥ v).sum := by
  induction l with
  | nil => simp
  | cons p l ih => simp [add_dotProduct, ih]

theorem list_sum_dot {n : ℕ} {ι : Type} (l : List ι) (f : ι → Vec n) (v : Vec n) : v ⬝ᵥ (l.map f).sum = (l.map fun p => v ⬝ᵥ f p).sum := by
  induction l with
  | nil => simp
  | cons p l ih => simp [dotProduct_add, ih]

theorem mulVec_list_sum {n : ℕ} {ι : Type} (M : Mat n n) (l : List ι) (f : ι → Vec n) : M *ᵥ (l.map f).sum = (l.map fun p => M *ᵥ f p).sum := by
  induction l with
  | nil => simp
  | cons p l ih => simp [mulVec_add, ih]

/-- The combination as a vector. -/
def comboVec (n : ℕ) (sl : K → Slice) (F : List K) (W : K → ℕ → ℝ) : Vec n := (F.map fun k => segVec n (sl k) (W k)).sum

theorem comboVar_eq {n : ℕ} {M : Mat n n} {sl : K → Slice} {F : List K} (hF : ∀ k ∈ F, (sl k).start ≤ (sl k).stop ∧ (sl k).stop ≤ n)
    {C : K → K → DMat} (hC : ∀ k1 ∈ F, ∀ k2 ∈ F, C k1 k2 = SqMat.block ⟨n, M⟩ (sl k1) (sl k2)) (W : K → ℕ → ℝ) :
    comboVar C F W = comboVec n sl F W ⬝ᵥ M *ᵥ comboVec n sl F W := by
  unfold comboVar comboVec
  rw [mulVec_list_sum, dot_list_sum]
  congr 1
  refine List.map_congr_left fun k1 h1 => ?_
  rw [list_sum_dot]
  congr 1
  refine List.map_congr_left fun k2 h2 => ?_
  rw [hC k1 h1 k2 h2]
  obtain ⟨a1, a2⟩ := hF k1 h1
  obtain ⟨b1, b2⟩ := hF k2 h2
  rw [segVec_dot a1 a2]
  have r1 : (SqMat.block ⟨n, M⟩ (sl k1) (sl k2)).rows = (sl k1).stop - (sl k1).start := by
    show (sl k1).len n = _
    unfold Slice.len
    omega
  have r2 : (SqMat.block ⟨n, M⟩ (sl k1) (sl k2)).cols = (sl k2).stop - (sl k2).start := by
    show (sl k2).len n = _
    unfold Slice.len
    omega
  rw [r1, r2]
  refine Finset.sum_congr rfl fun i hi => ?_
  rw [Finset.mem_range] at hi
  rw [dif_pos (by omega)]
  show _ = _ * (M ⟨_, _⟩ ⬝ᵥ segVec n (sl k2) (W k2))
  rw [dotProduct_comm, segVec_dot b1 b2, Finset.mul_sum]
  refine Finset.sum_congr rfl fun j hj => ?_
  rw [Finset.mem_range] at hj
  rw [dif_pos (by omega)]
  have g : (SqMat.block ⟨n, M⟩ (sl k1) (sl k2)).get i j = M ⟨(sl k1).start + i, by omega⟩ ⟨(sl k2).start + j, by omega⟩ := by
    show (if h : _ then _ else _) = _
    have m1 : min (sl k1).start n = (sl k1).start := by omega
    have m2 : min (sl k2).start n = (sl k2).start := by omega
    simp only [m1, m2]
    rw [dif_pos ⟨by omega, by omega⟩]
  rw [g]
  ring

theorem comboVec_dot {n : ℕ} {sl : K → Slice} {F : List K} (hF : ∀ k ∈ F, (sl k).start ≤ (sl k).stop ∧ (sl k).stop ≤ n) (W : K → ℕ → ℝ)
    (z : Vec n) : comboVec n sl F W ⬝ᵥ z = (F.map fun k => ∑ i ∈ Finset.range ((sl k).stop - (sl k).start),
      W k i * (if h : (sl k).start + i < n then z ⟨(sl k).start + i, h⟩ else 0)).sum := by
  unfold comboVec
  rw [dot_list_sum]
  congr 1
  exact List.map_congr_left fun k hk => segVec_dot (hF k hk).1 (hF k hk).2 _ _

/-- Completing the square: `2 u·z - zᵀ A z ≤ uᵀ A⁻¹ u` for a Gram matrix `A`. -/
theorem square_bound {m n : ℕ} {H : Mat m n} (hd : (Hᵀ * H).det ≠ 0) (u z : Vec n) :
    2 * (u ⬝ᵥ z) - z ⬝ᵥ (Hᵀ * H) *ᵥ z ≤ u ⬝ᵥ (Hᵀ * H)⁻¹ *ᵥ u := by
  have hu : IsUnit (Hᵀ * H).det := isUnit_iff_ne_zero.2 hd
  obtain ⟨y, hy⟩ : ∃ y, y = (Hᵀ * H)⁻¹ *ᵥ u := ⟨_, rfl⟩
  have h1 : (Hᵀ * H) *ᵥ y = u := by rw [hy, mulVec_mulVec, mul_nonsing_inv _ hu, one_mulVec]
  have h2 : 0 ≤ (y - z) ⬝ᵥ (Hᵀ * H) *ᵥ (y - z) := by rw [gram_dot_eq]; exact sq_nonneg _
  have h3 : y ⬝ᵥ (Hᵀ * H) *ᵥ z = u ⬝ᵥ z := by
    have : ((Hᵀ * H)ᵀ) = Hᵀ * H := by rw [transpose_mul, transpose_transpose]
    rw [dotProduct_mulVec, ← mulVec_transpose, this, h1]
  rw [mulVec_sub, dotProduct_sub, sub_dotProduct, sub_dotProduct, h1, h3, dotProduct_comm y u, dotProduct_comm z u] at h2
  rw [← hy]
  linarith

/-- The square is complete at `z = A⁻¹ u`. -/
theorem square_exact {m n : ℕ} {H : Mat m n} (hd : (Hᵀ * H).det ≠ 0) (u z : Vec n) (hz : z = (Hᵀ * H)⁻¹ *ᵥ u) :
    2 * (u ⬝ᵥ z) - z ⬝ᵥ (Hᵀ * H) *ᵥ z = u ⬝ᵥ (Hᵀ * H)⁻¹ *ᵥ u := by
  have hu : IsUnit (Hᵀ * H).det := isUnit_iff_ne_zero.2 hd
  have h1 : (Hᵀ * H) *ᵥ z = u := by rw [hz, mulVec_mulVec, mul_nonsing_inv _ hu, one_mulVec]
  rw [h1, ← hz, dotProduct_comm z u]
  ring

theorem linear_cov {P P1 P' : Prob K (List ℝ)} (hP : LinearProblem P) (hs : P.cfg.solver = "GN")
    (hit : 0 < P.cfg.maxIters) (hP1 : P.started vecVarOps = .ok P1) (h : P.solve vecVarOps = .ok P') (hc : P.cov = none)
    {m n : ℕ} {e : Vec m} {H : Mat m n} {c : ℝ} (hL : P1.linearize P.varsInit = .ok ⟨m, n, e, H, c⟩) (hd : (Hᵀ * H).det ≠ 0)
    {k1 k2 : K} {s1 s2 : Slice} (h1 : P1.varSlices.lookup k1 = some s1) (h2 : P1.varSlices.lookup k2 = some s2) :
    (P'.getCovarianceBlock k1 k2).map Prod.fst = .ok (some (SqMat.block ⟨n, (Hᵀ * H)⁻¹⟩ s1 s2)) :=
  C40_covariance P P1 P' hP hs hit hP1 h hc ⟨m, n, e, H, c⟩ hL hd k1 k2 s1 s2 h1 h2

/-! ### The property -/

/-- The same problem, started at the values `v`, with the variables `ks` held constant as well. -/
def holdVars (P : Prob K (List ℝ)) (v : List (K × List ℝ)) (ks : List K) : Prob K (List ℝ) :=
  ({ P with varsInit := v } : Prob K (List ℝ)).setConstant ks

theorem holdVars_linear {P : Prob K (List ℝ)} (hP : LinearProblem P) {v : List (K × List ℝ)} (hv : SameShape P.varsInit v) (ks : List K) :
    LinearProblem (holdVars P v ks) := by
  refine ⟨?_, hP.losses, fun r hr => ?_⟩
  · show (v.map Prod.fst).Nodup
    rw [hv.1]
    exact hP.keys
  · obtain ⟨ks', Js, n, b, h1, h2, h3, h4⟩ := hP.residuals r hr
    refine ⟨ks', Js, n, b, h1, h2, h3, fun t k J a1 a2 => ?_⟩
    obtain ⟨c1, x, c2, c3⟩ := h4 t k J a1 a2
    obtain ⟨y, d1, d2⟩ := hv.lookup c2
    exact ⟨c1, y, d1, c3.trans d2.symm⟩

theorem sameShape_symm {v w : List (K × List ℝ)} (h : SameShape v w) : SameShape w v := ⟨h.1.symm, h.2.symm⟩

theorem sameShape_trans {u v w : List (K × List ℝ)} (h : SameShape u v) (h' : SameShape v w) : SameShape u w :=
  ⟨h'.1.trans h.1, h'.2.trans h.2⟩

/-- `k` is a variable that is neither constant nor held. -/
def StillFree (P : Prob K (List ℝ)) (ks : List K) (k : K) : Prop := (∃ x, P.varsInit.lookup k = some x) ∧ k ∉ P.constKeys ∧ k ∉ ks

/-- **C138.** Some of the variables of a solved linear problem are held at their estimates and the problem is solved again, from any values
of the others: the estimates stay the same, and no combination of the others has a larger reported variance than before. -/
theorem C138_hold (P P' : Prob K (List ℝ)) (hP : LinearProblem P) (hs : P.cfg.solver = "GN") (hit : 0 < P.cfg.maxIters)
    (h : P.solve vecVarOps = .ok P') (ks : List K) (v : List (K × List ℝ)) (hv : SameShape P.varsInit v)
    (hval : ∀ k, k ∈ P.constKeys ∨ k ∈ ks → v.lookup k = P'.vars.lookup k)
    (hfree : ∃ k x, P.varsInit.lookup k = some x ∧ x ≠ [] ∧ k ∉ P.constKeys ∧ k ∉ ks) :
    ∃ Q', (holdVars P v ks).solve vecVarOps = .ok Q' ∧ Q'.vars = P'.vars ∧
      (P.cov = none → ∃ C C' : K → K → DMat,
        (∀ k1 k2, StillFree P ks k1 → StillFree P ks k2 → (P'.getCovarianceBlock k1 k2).map Prod.fst = .ok (some (C k1 k2)) ∧
          (Q'.getCovarianceBlock k1 k2).map Prod.fst = .ok (some (C' k1 k2))) ∧
        ∀ (F : List K) (W : K → ℕ → ℝ), (∀ k ∈ F, StillFree P ks k) → comboVar C' F W ≤ comboVar C F W) := by
  obtain ⟨Q, hQ⟩ : ∃ Q, Q = holdVars P v ks := ⟨_, rfl⟩
  have hQl : LinearProblem Q := by rw [hQ]; exact holdVars_linear hP hv ks
  have w1 : Q.varsInit = v := by rw [hQ]; rfl
  have w2 : ∀ k, k ∈ Q.constKeys ↔ k ∈ P.constKeys ∨ k ∈ ks := by rw [hQ]; exact C36_set_constant _ ks
  have w3 : Q.residuals = P.residuals := by rw [hQ]; rfl
  have w4 : Q.losses = P.losses := by rw [hQ]; rfl
  have w5 : Q.cfg = P.cfg := by rw [hQ]; rfl
  have w6 : Q.cov = P.cov := by rw [hQ]; rfl
  rw [← hQ]
  clear hQ
  obtain ⟨P1, e, H, c, hP1, hL, ha, hfit, hcost⟩ := linear_coords hP
  obtain ⟨Q1, e', H', c', hQ1, hL', ha', hfit', hcost'⟩ := linear_coords hQl
  rw [w3, w4, w1] at hcost'
  rw [w1] at hL' ha' hfit'
  obtain ⟨hshape, hconst, cf, hcf, hmin⟩ := C40_linear P P' hP hs hit h
  -- moving in the held problem stays among the assignments of the first
  have hback : ∀ w : Vec Q1.sizeState, SameShape P.varsInit (moveAll Q.constKeys Q1.varSlices w v) ∧
      ∀ k ∈ P.constKeys, (moveAll Q.constKeys Q1.varSlices w v).lookup k = P.varsInit.lookup k := by
    intro w
    refine ⟨sameShape_trans hv (moveAll_shape w v), fun k hk => ?_⟩
    rw [moveAll_const _ ((w2 k).2 (Or.inl hk)), hval k (Or.inl hk), hconst k hk]
  -- the estimate is reached in the held problem
  obtain ⟨w0, hw0⟩ : ∃ w0 : Vec Q1.sizeState, moveAll Q.constKeys Q1.varSlices w0 v = P'.vars := by
    have := move_surjective hQl hQ1 (v := P'.vars) (by rw [w1]; exact sameShape_trans (sameShape_symm hv) hshape) (fun k hk => by
      rw [w1, hval k ((w2 k).1 hk)])
    rwa [w1] at this
  have hcf' := hcost' w0
  rw [hw0, hcf] at hcf'
  have hcf'' := Except.ok.inj hcf'
  -- the held problem is regular
  have hdQ : (H'ᵀ * H').det ≠ 0 := by
    intro hd
    obtain ⟨w, hw, hwz⟩ := Matrix.exists_mulVec_eq_zero_iff.2 hd
    have hz : H' *ᵥ w = 0 := by
      have : vecNorm (H' *ᵥ w) ^ 2 = 0 := by rw [← gram_dot_eq, hwz, dotProduct_zero]
      exact vecNorm_zero_iff_zero (pow_eq_zero_iff two_ne_zero |>.1 this)
    obtain ⟨b1, b2⟩ := hback (w0 + w)
    obtain ⟨c1, hc1, -, hc2⟩ := hmin _ b1 b2
    rw [hcost' (w0 + w), mulVec_add, hz, add_zero, ← hcf''] at hc1
    have := hc2 (Except.ok.inj hc1).symm
    rw [← hw0] at this
    have hinj := moveAll_inj hQl hQ1 (δ := w0 + w) (δ' := w0) (by rw [w1]; exact this)
    exact hw (by simpa using hinj)
  have hnQ : 0 < Q1.sizeState := by
    obtain ⟨k, x, f1, f2, f3, f4⟩ := hfree
    obtain ⟨y, g1, g2⟩ := hv.lookup f1
    obtain ⟨s, s1, s2, s3⟩ := hfit' (k, y) (mem_of_lookup g1) (fun hk => by rcases (w2 k).1 hk with hk | hk; exacts [f3 hk, f4 hk])
    have : 0 < y.length := by rw [g2]; exact List.length_pos_iff.2 f2
    simp only at s2
    omega
  obtain ⟨Q', hQ'⟩ := C40_returns Q Q1 hQl (by rw [w5]; exact hs) (by rw [w5]; exact hit) hQ1 _ (by rw [w1]; exact hL') hdQ hnQ
  obtain ⟨hshapeQ, hconstQ, cq, hcq, hminQ⟩ := C40_linear Q Q' hQl (by rw [w5]; exact hs) (by rw [w5]; exact hit) hQ'
  rw [w3, w4] at hcq hminQ
  rw [w1] at hshapeQ hminQ hconstQ
  have hsame : Q'.vars = P'.vars := by
    obtain ⟨c1, k1, k2, k3⟩ := hminQ P'.vars (sameShape_trans (sameShape_symm hv) hshape) fun k hk => (hval k ((w2 k).1 hk)).symm
    rw [hcf] at k1
    obtain rfl := Except.ok.inj k1
    obtain ⟨c2, m1, m2, m3⟩ := hmin Q'.vars (sameShape_trans hv hshapeQ) fun k hk => by
      rw [hconstQ k ((w2 k).2 (Or.inl hk)), hval k (Or.inl hk), hconst k hk]
    rw [hcq] at m1
    obtain rfl := Except.ok.inj m1
    exact m3 (le_antisymm k2 m2)
  refine ⟨Q', hQ', hsame, fun hc => ?_⟩
  -- regularity of the first problem and its solution
  have hdP : (Hᵀ * H).det ≠ 0 := by
    obtain ⟨P1', hP1', h'⟩ := solve_GN hs h
    rw [hP1] at hP1'
    obtain rfl : P1 = P1' := Except.ok.inj hP1'
    obtain ⟨e1, e2, e3, e4, e5, e6, -, -⟩ := started_fields hP1
    unfold solveGN at h'
    obtain ⟨L, h2, h'⟩ := bind_ok h'
    obtain ⟨s, h3, h'⟩ := bind_ok h'
    rw [e6, hL] at h2
    obtain rfl := (Except.ok.inj h2).symm
    obtain ⟨N, hN⟩ : ∃ N, P1.cfg.maxIters = N + 1 := ⟨P1.cfg.maxIters - 1, by rw [e1]; omega⟩
    rw [hN] at h3
    unfold iterLoop at h3
    obtain ⟨r, hr, h3⟩ := bind_ok h3
    unfold gnStep at hr
    rw [if_neg (by simp [isConverged])] at hr
    obtain ⟨δ, g1, hr⟩ := bind_ok hr
    exact (spsolve_ok g1).1
  obtain ⟨δs, hδs⟩ := move_surjective hP hP1 hshape hconst
  have hδmin : δs = gnDelta e H := by
    have h0 := hcost δs
    rw [hδs, hcf] at h0
    have h0 := Except.ok.inj h0
    have h1 := hcost (gnDelta e H)
    obtain ⟨a1, a2⟩ := moveAll_shape (const := P.constKeys) (sl := P1.varSlices) (gnDelta e H) P.varsInit
    obtain ⟨c1, k1, k2, -⟩ := hmin (moveAll P.constKeys P1.varSlices (gnDelta e H) P.varsInit) ⟨a1, a2⟩ (fun k hk => moveAll_const _ hk)
    rw [h1] at k1
    obtain rfl := Except.ok.inj k1
    have hpy := gnDelta_pythagoras e H hdP δs
    refine gnDelta_unique e H hdP δs (le_antisymm ?_ (dot_self_nonneg _))
    linarith
  have hwmin : w0 = gnDelta e' H' := by
    have h1 := hcost' (gnDelta e' H')
    obtain ⟨b1, b2⟩ := hback (gnDelta e' H')
    obtain ⟨c1, k1, k2, -⟩ := hmin _ b1 b2
    rw [h1] at k1
    obtain rfl := Except.ok.inj k1
    have hpy := gnDelta_pythagoras e' H' hdQ w0
    refine gnDelta_unique e' H' hdQ w0 (le_antisymm ?_ (dot_self_nonneg _))
    linarith
  -- slices of the free variables in the two problems
  have hsP : ∀ k, StillFree P ks k → ∃ x y sP sQ, P.varsInit.lookup k = some x ∧ v.lookup k = some y ∧ y.length = x.length ∧
      P1.varSlices.lookup k = some sP ∧ sP.stop = sP.start + x.length ∧ sP.stop ≤ P1.sizeState ∧
      Q1.varSlices.lookup k = some sQ ∧ sQ.stop = sQ.start + x.length ∧ sQ.stop ≤ Q1.sizeState ∧ k ∉ P.constKeys ∧ k ∉ Q.constKeys := by
    rintro k ⟨⟨x, hx⟩, h1, h2⟩
    obtain ⟨y, hy, hyl⟩ := hv.lookup hx
    have hq : k ∉ Q.constKeys := fun hk => by rcases (w2 k).1 hk with hk | hk; exacts [h1 hk, h2 hk]
    obtain ⟨sP, a1, a2, a3⟩ := hfit (k, x) (mem_of_lookup hx) h1
    obtain ⟨sQ, b1, b2, b3⟩ := hfit' (k, y) (mem_of_lookup hy) hq
    simp only at a2 b2
    exact ⟨x, y, sP, sQ, hx, hy, hyl, a1, a2, a3, b1, by rw [← hyl]; exact b2, b3, h1, hq⟩
  refine ⟨fun k1 k2 => SqMat.block ⟨P1.sizeState, (Hᵀ * H)⁻¹⟩ ((P1.varSlices.lookup k1).getD ⟨0, 0⟩) ((P1.varSlices.lookup k2).getD ⟨0, 0⟩),
    fun k1 k2 => SqMat.block ⟨Q1.sizeState, (H'ᵀ * H')⁻¹⟩ ((Q1.varSlices.lookup k1).getD ⟨0, 0⟩) ((Q1.varSlices.lookup k2).getD ⟨0, 0⟩),
    fun k1 k2 f1 f2 => ?_, fun F W hF => ?_⟩
  · obtain ⟨x1, y1, p1, q1, -, -, -, a1, -, -, b1, -⟩ := hsP k1 f1
    obtain ⟨x2, y2, p2, q2, -, -, -, a2, -, -, b2, -⟩ := hsP k2 f2
    beta_reduce
    rw [a1, a2, b1, b2]
    simp only [Option.getD_some]
    have hsq : Q.cfg.solver = "GN" := by rw [w5]; exact hs
    have hitq : 0 < Q.cfg.maxIters := by rw [w5]; exact hit
    have hLq : Q1.linearize Q.varsInit = .ok ⟨Q1.sizeErr, Q1.sizeState, e', H', c'⟩ := by rw [w1]; exact hL'
    exact ⟨linear_cov hP hs hit hP1 h hc hL hdP a1 a2, linear_cov hQl hsq hitq hQ1 hQ' (w6.trans hc) hLq hdQ b1 b2⟩
  · have bP : ∀ k ∈ F, ((P1.varSlices.lookup k).getD ⟨0, 0⟩).start ≤ ((P1.varSlices.lookup k).getD ⟨0, 0⟩).stop ∧
        ((P1.varSlices.lookup k).getD ⟨0, 0⟩).stop ≤ P1.sizeState := by
      intro k hk
      obtain ⟨x, y, sP, sQ, -, -, -, a1, a2, a3, -⟩ := hsP k (hF k hk)
      rw [a1, Option.getD_some]
      omega
    have bQ : ∀ k ∈ F, ((Q1.varSlices.lookup k).getD ⟨0, 0⟩).start ≤ ((Q1.varSlices.lookup k).getD ⟨0, 0⟩).stop ∧
        ((Q1.varSlices.lookup k).getD ⟨0, 0⟩).stop ≤ Q1.sizeState := by
      intro k hk
      obtain ⟨x, y, sP, sQ, -, -, -, -, -, -, a1, a2, a3, -⟩ := hsP k (hF k hk)
      rw [a1, Option.getD_some]
      omega
    rw [comboVar_eq bP (fun _ _ _ _ => rfl), comboVar_eq bQ (fun _ _ _ _ => rfl)]
    obtain ⟨uP, huP⟩ : ∃ u, u = comboVec P1.sizeState (fun k => (P1.varSlices.lookup k).getD ⟨0, 0⟩) F W := ⟨_, rfl⟩
    obtain ⟨uQ, huQ⟩ : ∃ u, u = comboVec Q1.sizeState (fun k => (Q1.varSlices.lookup k).getD ⟨0, 0⟩) F W := ⟨_, rfl⟩
    rw [← huP, ← huQ]
    obtain ⟨w, hw⟩ : ∃ w, w = (H'ᵀ * H')⁻¹ *ᵥ uQ := ⟨_, rfl⟩
    obtain ⟨b1, b2⟩ := hback (w0 + w)
    obtain ⟨d, hd⟩ := move_surjective hP hP1 b1 b2
    obtain ⟨z, hz⟩ : ∃ z, z = d - δs := ⟨_, rfl⟩
    -- the costs agree
    have hquad : z ⬝ᵥ (Hᵀ * H) *ᵥ z = w ⬝ᵥ (H'ᵀ * H') *ᵥ w := by
      have k1 := hcost d
      rw [hd, hcost' (w0 + w)] at k1
      have k1 := Except.ok.inj k1
      have k2 := hcost δs
      rw [hδs, hcf] at k2
      have k2 := Except.ok.inj k2
      have p1 := gnDelta_pythagoras e H hdP d
      have p2 := gnDelta_pythagoras e' H' hdQ (w0 + w)
      rw [← hδmin, ← hz] at p1
      rw [← hwmin, add_sub_cancel_left] at p2
      rw [gram_dot_eq, gram_dot_eq, vecNorm_sq, vecNorm_sq]
      linarith
    -- and so do the combinations
    have hdot : uP ⬝ᵥ z = uQ ⬝ᵥ w := by
      rw [huP, huQ, comboVec_dot bP, comboVec_dot bQ]
      congr 1
      refine List.map_congr_left fun k hk => ?_
      obtain ⟨x, y, sP, sQ, hx, hy, hyl, a1, a2, a3, c1, c2, c3, hkP, hkQ⟩ := hsP k (hF k hk)
      simp only [a1, c1, Option.getD_some]
      rw [show sP.stop - sP.start = x.length by omega, show sQ.stop - sQ.start = x.length by omega]
      refine Finset.sum_congr rfl fun i hi => ?_
      rw [Finset.mem_range] at hi
      have hbP : sP.start + i < P1.sizeState := by omega
      have hbQ : sQ.start + i < Q1.sizeState := by omega
      rw [dif_pos hbP, dif_pos hbQ]
      have m1 := moveAll_entry d hx hkP a1 a2 a3 hi hbP
      have m2 := moveAll_entry δs hx hkP a1 a2 a3 hi hbP
      have m3 := moveAll_entry (w0 + w) hy hkQ c1 (by rw [hyl]; exact c2) c3 (i := i) (by omega) hbQ
      have m4 := moveAll_entry w0 hy hkQ c1 (by rw [hyl]; exact c2) c3 (i := i) (by omega) hbQ
      rw [hd] at m1
      rw [hδs] at m2
      rw [hw0] at m4
      rw [m1] at m3
      rw [m2] at m4
      have : z ⟨sP.start + i, hbP⟩ = w ⟨sQ.start + i, hbQ⟩ := by
        rw [hz, Pi.sub_apply]
        rw [Pi.add_apply] at m3
        linarith
      rw [this]
    have g1 := square_bound hdP uP z
    have g2 := square_exact hdQ uQ w hw
    rw [hdot, hquad] at g1
    linarith

/-! ### A concrete case: `x - 1` and `x + y - 5`; `x` is held -/

/-- The example problem. -/
noncomputable def exProb2 : Prob ℕ (List ℝ) where
  cfg := ⟨"GN", 5, none, none, none, 1⟩
  varsInit := [(1, [0]), (2, [0])]
  constKeys := []
  residuals := [linRes [1] [⟨1, 1, fun _ _ => 1⟩] 1 fun _ => -1, linRes [1, 2] [⟨1, 1, fun _ _ => 1⟩, ⟨1, 1, fun _ _ => 1⟩] 1 fun _ => -5]
  losses := [l2Loss, l2Loss]
  vars := []
  varSlices := []
  resSlices := []
  sizeErr := 0
  sizeState := 0
  costHistory := []
  info := none
  cov := none

theorem exProb2_linear : LinearProblem exProb2 where
  keys := by simp [exProb2]
  losses := rfl
  residuals := by
    intro r hr
    simp only [exProb2, List.mem_cons, List.not_mem_nil, or_false] at hr
    rcases hr with hr | hr
    · refine ⟨_, _, _, _, hr, by simp, rfl, ?_⟩
      intro t k J h1 h2
      cases t with
      | succ t => simp at h1
      | zero =>
        simp only [List.getElem?_cons_zero, Option.some.injEq] at h1 h2
        subst h1 h2
        exact ⟨rfl, [0], rfl, rfl⟩
    · refine ⟨_, _, _, _, hr, by simp, rfl, ?_⟩
      intro t k J h1 h2
      match t with
      | 0 =>
        simp only [List.getElem?_cons_zero, Option.some.injEq] at h1 h2
        subst h1 h2
        exact ⟨rfl, [0], rfl, rfl⟩
      | 1 =>
        simp only [List.getElem?_cons_zero, List.getElem?_cons_succ, Option.some.injEq] at h1 h2
        subst h1 h2
        exact ⟨rfl, [0], rfl, rfl⟩
      | t + 2 => simp at h1

theorem exProb2_solve : ∃ P', exProb2.solve vecVarOps = .ok P' := by
  obtain ⟨P1, e, H, c, h1, h2, h3, h4, h5⟩ := linear_coords exProb2_linear
  obtain ⟨r1, r2, r3⟩ := started_slices h1
  have hn : P1.sizeState = 2 := r3
  refine C40_returns exProb2 P1 exProb2_linear rfl (by decide) h1 _ h2 ?_ (by show 0 < P1.sizeState; omega)
  show (Hᵀ * H).det ≠ 0
  intro hd
  obtain ⟨w, hw, hwz⟩ := Matrix.exists_mulVec_eq_zero_iff.2 hd
  have hz : H *ᵥ w = 0 := by
    have : vecNorm (H *ᵥ w) ^ 2 = 0 := by rw [← gram_dot_eq, hwz, dotProduct_zero]
    exact vecNorm_zero_iff_zero (pow_eq_zero_iff two_ne_zero |>.1 this)
  have hvs : P1.varSlices = [(1, ⟨0, 1⟩), (2, ⟨1, 2⟩)] := r2
  have hall : ∀ δ : Vec P1.sizeState, moveAll exProb2.constKeys P1.varSlices δ exProb2.varsInit =
      [(1, [δ ⟨0, by omega⟩]), (2, [δ ⟨1, by omega⟩])] := by
    intro δ
    rw [hvs]
    simp [moveAll, exProb2, moveVec, List.lookup, hn]
  have hcost : ∀ δ : Vec P1.sizeState, 1 / 2 * ((e + H *ᵥ δ) ⬝ᵥ (e + H *ᵥ δ)) =
      1 / 2 * (-1 + δ ⟨0, by omega⟩) ^ 2 + 1 / 2 * (-5 + (δ ⟨0, by omega⟩ + δ ⟨1, by omega⟩)) ^ 2 := by
    intro δ
    have := h5 δ
    rw [hall δ] at this
    refine (Except.ok.inj (Eq.trans (b := totalCost [(1, [δ ⟨0, by omega⟩]), (2, [δ ⟨1, by omega⟩])] (exProb2.residuals.zip exProb2.losses)) ?_ this)).symm
    simp [exProb2, totalCost, lookupAll, dictGet, linRes, linErr, bind, Except.bind, List.lookup, pure, Except.pure, l2Loss, listNorm]
    rw [mul_assoc, mul_assoc, Real.mul_self_sqrt (mul_self_nonneg _), Real.mul_self_sqrt (mul_self_nonneg _)]
    ring
  have c0 := hcost w
  have c1 := hcost 0
  have c2 := hcost (-w)
  rw [hz, add_zero] at c0
  rw [mulVec_zero, add_zero] at c1
  rw [mulVec_neg, hz, neg_zero, add_zero] at c2
  simp only [Pi.neg_apply, Pi.zero_apply] at c0 c1 c2
  have s1 : w ⟨0, by omega⟩ ^ 2 + (w ⟨0, by omega⟩ + w ⟨1, by omega⟩) ^ 2 = 0 := by nlinarith
  have a0 : w ⟨0, by omega⟩ = 0 := by nlinarith [sq_nonneg (w ⟨0, by omega⟩), sq_nonneg (w ⟨0, by omega⟩ + w ⟨1, by omega⟩)]
  have a1 : w ⟨1, by omega⟩ = 0 := by
    rw [a0] at s1
    nlinarith
  refine hw (funext fun i => ?_)
  obtain ⟨i, hi⟩ := i
  match i, hi with
  | 0, _ => exact a0
  | 1, _ => exact a1
  | i + 2, hi => omega

/-- `x` held at its estimate, `y` started at `100`. -/
example : ∃ P' v Q', exProb2.solve vecVarOps = .ok P' ∧ v.lookup 2 = some [100] ∧ (holdVars exProb2 v [1]).solve vecVarOps = .ok Q' ∧
    Q'.vars = P'.vars := by
  obtain ⟨P', hP'⟩ := exProb2_solve
  obtain ⟨hsh, -⟩ := C40_linear exProb2 P' exProb2_linear rfl (by decide) hP'
  obtain ⟨x, hx, hxl⟩ := hsh.lookup (k := 1) (x := [0]) rfl
  obtain ⟨Q', hQ, hv, -⟩ := C138_hold exProb2 P' exProb2_linear rfl (by decide) hP' [1] [(1, x), (2, [100])]
    ⟨rfl, by simp [exProb2]; exact hxl⟩ (fun k hk => by
      have : k = 1 := by simpa [exProb2] using hk
      rw [this, hx]
      rfl) ⟨2, [0], rfl, by simp, by simp [exProb2], by simp⟩
  exact ⟨P', _, Q', hP', rfl, hQ, hv⟩

end Verif
