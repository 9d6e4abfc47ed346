import Verif.Props.Hold

/-!
C140: attaching a variable that only one residual knows.
-/

set_option linter.unusedVariables false
set_option linter.unusedSectionVars false
set_option linter.unusedSimpArgs false

namespace Verif

open Matrix

variable {K : Type} [DecidableEq K]

/-! ### The variance of a combination from the cost alone -/

/-- An assignment the solver may choose: the variables of `P` with their sizes, the constant ones at their values. -/
def Allowed (P : Prob K (List ℝ)) (v : List (K × List ℝ)) : Prop :=
  SameShape P.varsInit v ∧ ∀ k ∈ P.constKeys, v.lookup k = P.varsInit.lookup k

/-- By how much `Σ_k Σ_i W k i * x_k[i]`, `k` in `F`, differs between `v` and `v0`. -/
def comboDiff (F : List K) (W : K → ℕ → ℝ) (v v0 : List (K × List ℝ)) : ℝ :=
  (F.map fun k => ∑ i ∈ Finset.range (valOf v0 k).length, W k i * ((valOf v k).getD i 0 - (valOf v0 k).getD i 0)).sum

/-- A variable of `P` that is not constant. -/
def IsFree (P : Prob K (List ℝ)) (k : K) : Prop := (∃ x, P.varsInit.lookup k = some x) ∧ k ∉ P.constKeys

/-- `2 d - 2 g` for the displacements that change the combination by `d` and increase the cost by `g`. -/
def combosOver (P : Prob K (List ℝ)) (v0 : List (K × List ℝ)) (F : List K) (W : K → ℕ → ℝ) : Set ℝ :=
  {t | ∃ v c c0, Allowed P v ∧ totalCost v (P.residuals.zip P.losses) = .ok c ∧ totalCost v0 (P.residuals.zip P.losses) = .ok c0 ∧
    t = 2 * comboDiff F W v v0 - 2 * (c - c0)}

theorem linear_regular {P P1 P' : Prob K (List ℝ)} (hs : P.cfg.solver = "GN") (hit : 0 < P.cfg.maxIters)
    (h : P.solve vecVarOps = .ok P') (hP1 : P.started vecVarOps = .ok P1) {m n : ℕ} {e : Vec m} {H : Mat m n} {c : ℝ}
    (hL : P1.linearize P.varsInit = .ok ⟨m, n, e, H, c⟩) : (Hᵀ * H).det ≠ 0 := by
  obtain ⟨P1', hP1', h'⟩ := solve_GN hs h
  rw [hP1] at hP1'
  obtain rfl : P1 = P1' := Except.ok.inj hP1'
  obtain ⟨e1, e2, e3, e4, e5, e6, -, -⟩ := started_fields hP1
  unfold solveGN at h'
  obtain ⟨L, h2, h'⟩ := bind_ok h'
  obtain ⟨s, h3, h'⟩ := bind_ok h'
  rw [e6, hL] at h2
  obtain rfl := (Except.ok.inj h2).symm
  obtain ⟨N, hN⟩ : ∃ N, P1.cfg.maxIters = N + 1 := ⟨P1.cfg.maxIters - 1, by rw [e1]; omega⟩
  rw [hN] at h3
  unfold iterLoop at h3
  obtain ⟨r, hr, h3⟩ := bind_ok h3
  unfold gnStep at hr
  rw [if_neg (by simp [isConverged])] at hr
  obtain ⟨δ, g1, hr⟩ := bind_ok hr
  exact (spsolve_ok g1).1

theorem block_symm {n : ℕ} {M : Mat n n} (h : Mᵀ = M) (s1 s2 : Slice) (i j : ℕ) :
    (SqMat.block ⟨n, M⟩ s2 s1).get j i = (SqMat.block ⟨n, M⟩ s1 s2).get i j := by
  show (if h : _ then M _ _ else 0) = if h : _ then M _ _ else 0
  by_cases hc : min s1.start n + i < n ∧ min s2.start n + j < n
  · rw [dif_pos hc, dif_pos ⟨hc.2, hc.1⟩]
    conv_lhs => rw [← h]
    rfl
  · rw [dif_neg hc, dif_neg fun h => hc ⟨h.2, h.1⟩]

/-- **C140, what the reported variance means.** For a linear problem solved with Gauss-Newton: the variance of any combination of the free
variables, from the covariance blocks, is the greatest value of `2 d - 2 g`, where `d` is the change of the combination and `g` is the increase
of the cost, over all assignments of the variables. -/
theorem C140_variance (P P' : Prob K (List ℝ)) (hP : LinearProblem P) (hs : P.cfg.solver = "GN") (hit : 0 < P.cfg.maxIters)
    (h : P.solve vecVarOps = .ok P') (hc : P.cov = none) :
    ∃ C : K → K → DMat,
      (∀ k1 k2, IsFree P k1 → IsFree P k2 → (P'.getCovarianceBlock k1 k2).map Prod.fst = .ok (some (C k1 k2)) ∧
        (C k1 k2).rows = (valOf P.varsInit k1).length ∧ (C k1 k2).cols = (valOf P.varsInit k2).length ∧
        ∀ i j, (C k2 k1).get j i = (C k1 k2).get i j) ∧
      ∀ (F : List K) (W : K → ℕ → ℝ), (∀ k ∈ F, IsFree P k) → IsGreatest (combosOver P P'.vars F W) (comboVar C F W) := by
  obtain ⟨P1, e, H, c, hP1, hL, ha, hfit, hcost⟩ := linear_coords hP
  obtain ⟨hshape, hconst, cf, hcf, hmin⟩ := C40_linear P P' hP hs hit h
  have hdP := linear_regular hs hit h hP1 hL
  obtain ⟨δs, hδs⟩ := move_surjective hP hP1 hshape hconst
  have hδmin : δs = gnDelta e H := by
    have h0 := hcost δs
    rw [hδs, hcf] at h0
    have h0 := Except.ok.inj h0
    have h1 := hcost (gnDelta e H)
    obtain ⟨a1, a2⟩ := moveAll_shape (const := P.constKeys) (sl := P1.varSlices) (gnDelta e H) P.varsInit
    obtain ⟨c1, k1, k2, -⟩ := hmin (moveAll P.constKeys P1.varSlices (gnDelta e H) P.varsInit) ⟨a1, a2⟩ (fun k hk => moveAll_const _ hk)
    rw [h1] at k1
    obtain rfl := Except.ok.inj k1
    have hpy := gnDelta_pythagoras e H hdP δs
    refine gnDelta_unique e H hdP δs (le_antisymm ?_ (dot_self_nonneg _))
    linarith
  have hsP : ∀ k, IsFree P k → ∃ x sP, P.varsInit.lookup k = some x ∧
      P1.varSlices.lookup k = some sP ∧ sP.stop = sP.start + x.length ∧ sP.stop ≤ P1.sizeState ∧ k ∉ P.constKeys := by
    rintro k ⟨⟨x, hx⟩, h1⟩
    obtain ⟨sP, a1, a2, a3⟩ := hfit (k, x) (mem_of_lookup hx) h1
    exact ⟨x, sP, hx, a1, a2, a3, h1⟩
  refine ⟨fun k1 k2 => SqMat.block ⟨P1.sizeState, (Hᵀ * H)⁻¹⟩ ((P1.varSlices.lookup k1).getD ⟨0, 0⟩) ((P1.varSlices.lookup k2).getD ⟨0, 0⟩),
    fun k1 k2 f1 f2 => ?_, fun F W hF => ?_⟩
  · obtain ⟨x1, p1, b1, a1, a1', a1'', -⟩ := hsP k1 f1
    obtain ⟨x2, p2, b2, a2, a2', a2'', -⟩ := hsP k2 f2
    beta_reduce
    rw [a1, a2]
    refine ⟨linear_cov hP hs hit hP1 h hc hL hdP a1 a2, ?_, ?_, fun i j => ?_⟩
    · show p1.len P1.sizeState = _
      unfold valOf Slice.len
      rw [b1, Option.getD_some]
      omega
    · show p2.len P1.sizeState = _
      unfold valOf Slice.len
      rw [b2, Option.getD_some]
      omega
    · exact block_symm (by rw [transpose_nonsing_inv, transpose_mul, transpose_transpose]) p1 p2 i j
  · have bP : ∀ k ∈ F, ((P1.varSlices.lookup k).getD ⟨0, 0⟩).start ≤ ((P1.varSlices.lookup k).getD ⟨0, 0⟩).stop ∧
        ((P1.varSlices.lookup k).getD ⟨0, 0⟩).stop ≤ P1.sizeState := by
      intro k hk
      obtain ⟨x, sP, -, a1, a2, a3, -⟩ := hsP k (hF k hk)
      rw [a1, Option.getD_some]
      omega
    rw [comboVar_eq bP (fun _ _ _ _ => rfl)]
    obtain ⟨u, hu⟩ : ∃ u, u = comboVec P1.sizeState (fun k => (P1.varSlices.lookup k).getD ⟨0, 0⟩) F W := ⟨_, rfl⟩
    rw [← hu]
    -- both terms in coordinates
    have hdiff : ∀ d, comboDiff F W (moveAll P.constKeys P1.varSlices d P.varsInit) P'.vars = u ⬝ᵥ (d - δs) := by
      intro d
      rw [hu, comboVec_dot bP]
      unfold comboDiff
      congr 1
      refine List.map_congr_left fun k hk => ?_
      obtain ⟨x, sP, hx, a1, a2, a3, hkP⟩ := hsP k (hF k hk)
      obtain ⟨y, hy, hyl⟩ := hshape.lookup hx
      have hv : valOf P'.vars k = y := by unfold valOf; rw [hy, Option.getD_some]
      simp only [a1, Option.getD_some]
      rw [show sP.stop - sP.start = x.length by omega, hv, hyl]
      refine Finset.sum_congr rfl fun i hi => ?_
      rw [Finset.mem_range] at hi
      have hbP : sP.start + i < P1.sizeState := by omega
      rw [dif_pos hbP]
      have m1 := moveAll_entry d hx hkP a1 a2 a3 hi hbP
      have m2 := moveAll_entry δs hx hkP a1 a2 a3 hi hbP
      rw [hδs, hv] at m2
      rw [m1, m2, Pi.sub_apply]
      ring
    have hquad : ∀ d cd, totalCost (moveAll P.constKeys P1.varSlices d P.varsInit) (P.residuals.zip P.losses) = .ok cd →
        2 * (cd - cf) = (d - δs) ⬝ᵥ (Hᵀ * H) *ᵥ (d - δs) := by
      intro d cd k1
      rw [hcost d] at k1
      have k1 := Except.ok.inj k1
      have k2 := hcost δs
      rw [hδs, hcf] at k2
      have k2 := Except.ok.inj k2
      have p1 := gnDelta_pythagoras e H hdP d
      rw [← hδmin] at p1
      rw [gram_dot_eq, vecNorm_sq]
      linarith
    constructor
    · obtain ⟨w, hw⟩ : ∃ w, w = (Hᵀ * H)⁻¹ *ᵥ u := ⟨_, rfl⟩
      have hcd := hcost (δs + w)
      refine ⟨moveAll P.constKeys P1.varSlices (δs + w) P.varsInit, _, cf, ⟨moveAll_shape _ _, fun k hk => moveAll_const _ hk⟩, hcd, hcf, ?_⟩
      rw [hdiff, hquad _ _ hcd, add_sub_cancel_left]
      exact (square_exact hdP u w hw).symm
    · rintro t ⟨v, cv, c0, ⟨v1, v2⟩, hcv, hc0, rfl⟩
      rw [hcf] at hc0
      obtain rfl := Except.ok.inj hc0
      obtain ⟨d, hd⟩ := move_surjective hP hP1 v1 v2
      rw [← hd] at hcv
      rw [← hd, hdiff, hquad _ _ hcv]
      exact square_bound hdP u (d - δs)

/-! ### Blocks from variances -/

/-- The covariance of two combinations. -/
noncomputable def comboCov (C : K → K → DMat) (F : List K) (W W' : K → ℕ → ℝ) : ℝ :=
  (F.map fun k1 => (F.map fun k2 => ∑ i ∈ Finset.range (C k1 k2).rows, ∑ j ∈ Finset.range (C k1 k2).cols,
    W k1 i * (C k1 k2).get i j * W' k2 j).sum).sum

theorem comboCov_add (C : K → K → DMat) (F : List K) (W1 W2 W : K → ℕ → ℝ) :
    comboCov C F (fun k i => W1 k i + W2 k i) W = comboCov C F W1 W + comboCov C F W2 W := by
  unfold comboCov
  rw [← List.sum_map_add]
  congr 1
  refine List.map_congr_left fun k1 _ => ?_
  rw [← List.sum_map_add]
  congr 1
  refine List.map_congr_left fun k2 _ => ?_
  simp only [add_mul, Finset.sum_add_distrib]

theorem comboCov_add' (C : K → K → DMat) (F : List K) (W W1 W2 : K → ℕ → ℝ) :
    comboCov C F W (fun k i => W1 k i + W2 k i) = comboCov C F W W1 + comboCov C F W W2 := by
  unfold comboCov
  rw [← List.sum_map_add]
  congr 1
  refine List.map_congr_left fun k1 _ => ?_
  rw [← List.sum_map_add]
  congr 1
  refine List.map_congr_left fun k2 _ => ?_
  simp only [mul_add, Finset.sum_add_distrib]

/-- The combination that is component `i` of variable `k`. -/
def oneOf (k : K) (i : ℕ) : K → ℕ → ℝ := fun q a => if q = k ∧ a = i then 1 else 0

theorem sum_one_of {F : List K} (hF : F.Nodup) {k : K} (hk : k ∈ F) (f : K → ℝ) (h : ∀ q ∈ F, q ≠ k → f q = 0) : (F.map f).sum = f k := by
  rw [← List.sum_toFinset f hF]
  refine Finset.sum_eq_single k (fun q hq hne => h q (by simpa using hq) hne) fun hn => absurd (by simpa using hk) hn

theorem comboCov_one {C : K → K → DMat} {F : List K} (hF : F.Nodup) {k1 k2 : K} (h1 : k1 ∈ F) (h2 : k2 ∈ F) {i j : ℕ}
    (hi : i < (C k1 k2).rows) (hj : j < (C k1 k2).cols) : comboCov C F (oneOf k1 i) (oneOf k2 j) = (C k1 k2).get i j := by
  unfold comboCov
  rw [sum_one_of hF h1, sum_one_of hF h2]
  · rw [Finset.sum_eq_single i, Finset.sum_eq_single j]
    · simp [oneOf]
    · intro b _ hb; simp [oneOf, hb]
    · intro hn; exact absurd (Finset.mem_range.2 hj) hn
    · intro b _ hb; exact Finset.sum_eq_zero fun c _ => by simp [oneOf, hb]
    · intro hn; exact absurd (Finset.mem_range.2 hi) hn
  · intro q _ hne
    exact Finset.sum_eq_zero fun a _ => Finset.sum_eq_zero fun b _ => by simp [oneOf, hne]
  · intro q _ hne
    refine List.sum_eq_zero fun t ht => ?_
    obtain ⟨k, -, rfl⟩ := List.mem_map.1 ht
    exact Finset.sum_eq_zero fun a _ => Finset.sum_eq_zero fun b _ => by simp [oneOf, hne]

/-- The variances of all combinations determine the blocks. -/
theorem combo_entries {C C' : K → K → DMat} {Ok : K → Prop} {len : K → ℕ}
    (h : ∀ k1 k2, Ok k1 → Ok k2 → (C k1 k2).rows = len k1 ∧ (C k1 k2).cols = len k2 ∧ ∀ i j, (C k2 k1).get j i = (C k1 k2).get i j)
    (h' : ∀ k1 k2, Ok k1 → Ok k2 → (C' k1 k2).rows = len k1 ∧ (C' k1 k2).cols = len k2 ∧ ∀ i j, (C' k2 k1).get j i = (C' k1 k2).get i j)
    (hv : ∀ (F : List K) (W : K → ℕ → ℝ), (∀ k ∈ F, Ok k) → comboVar C' F W = comboVar C F W) {k1 k2 : K} (h1 : Ok k1) (h2 : Ok k2) {i j : ℕ}
    (hi : i < len k1) (hj : j < len k2) : (C' k1 k2).get i j = (C k1 k2).get i j := by
  obtain ⟨F, hF, m1, m2, hok⟩ : ∃ F : List K, F.Nodup ∧ k1 ∈ F ∧ k2 ∈ F ∧ ∀ k ∈ F, Ok k := by
    by_cases e : k1 = k2
    · exact ⟨[k1], by simp, by simp, by simp [e], by simpa using h1⟩
    · refine ⟨[k1, k2], by simp [e], by simp, by simp, fun k hk => ?_⟩
      simp only [List.mem_cons, List.not_mem_nil, or_false] at hk
      rcases hk with rfl | rfl <;> assumption
  have expand : ∀ D : K → K → DMat, (∀ k1 k2, Ok k1 → Ok k2 → (D k1 k2).rows = len k1 ∧ (D k1 k2).cols = len k2 ∧ ∀ i j, (D k2 k1).get j i = (D k1 k2).get i j) →
      comboVar D F (fun k a => oneOf k1 i k a + oneOf k2 j k a) - comboVar D F (oneOf k1 i) - comboVar D F (oneOf k2 j) = 2 * (D k1 k2).get i j := by
    intro D hD
    obtain ⟨a1, a2, a3⟩ := hD k1 k2 h1 h2
    obtain ⟨b1, b2, b3⟩ := hD k2 k1 h2 h1
    have e : ∀ W, comboVar D F W = comboCov D F W W := fun _ => rfl
    rw [e, e, e, comboCov_add, comboCov_add', comboCov_add', comboCov_one (C := D) hF m1 m2 (by rw [a1]; exact hi) (by rw [a2]; exact hj),
      comboCov_one (C := D) hF m2 m1 (by rw [b1]; exact hj) (by rw [b2]; exact hi), a3]
    ring
  have g1 := expand C h
  have g2 := expand C' h'
  rw [hv F _ hok, hv F _ hok, hv F _ hok, g1] at g2
  linarith

/-! ### Attaching a variable -/

/-- The problem with one more variable and one more residual. -/
noncomputable def attach (P : Prob K (List ℝ)) (k : K) (x : List ℝ) (r : Residual K (List ℝ)) : Prob K (List ℝ) :=
  { P with varsInit := P.varsInit ++ [(k, x)], residuals := P.residuals ++ [r], losses := P.losses ++ [l2Loss] }

/-- The residual `r` of the variable `k` and of variables of `P`: whatever the values of the latter, exactly one value of `k` makes it zero. -/
structure Determines (P : Prob K (List ℝ)) (k : K) (x : List ℝ) (ks : List K) (r : Residual K (List ℝ)) : Prop where
  keys : r.keys = k :: ks
  known : ∀ q ∈ ks, ∃ y, P.varsInit.lookup q = some y
  value : ∀ v, SameShape P.varsInit v → ∃ y : List ℝ, y.length = x.length ∧
    (∃ e, r.error (y :: ks.map (valOf v)) = .ok e ∧ listNorm e = 0) ∧
    ∀ (y' : List ℝ) (e : List ℝ), y'.length = x.length → r.error (y' :: ks.map (valOf v)) = .ok e → listNorm e = 0 → y' = y

theorem lookup_append_ne {S : Type} (v : List (K × S)) {k q : K} (x : S) (h : q ≠ k) : (v ++ [(k, x)]).lookup q = v.lookup q := by
  induction v with
  | nil => exact lookup_cons_ne _ _ h
  | cons p v ih =>
    obtain ⟨p1, p2⟩ := p
    rw [List.cons_append]
    by_cases e : q = p1
    · subst e; rw [lookup_cons_self, lookup_cons_self]
    · rw [lookup_cons_ne _ _ e, lookup_cons_ne _ _ e, ih]

theorem lookup_append_self {S : Type} (v : List (K × S)) {k : K} (x : S) (h : k ∉ v.map Prod.fst) : (v ++ [(k, x)]).lookup k = some x := by
  induction v with
  | nil => exact lookup_cons_self _ _ _
  | cons p v ih =>
    obtain ⟨p1, p2⟩ := p
    rw [List.map_cons, List.mem_cons, not_or] at h
    rw [List.cons_append, lookup_cons_ne _ _ h.1, ih h.2]

theorem lookupAll_congr_on {S : Type} {v w : List (K × S)} : ∀ {ks : List K}, (∀ q ∈ ks, v.lookup q = w.lookup q) → lookupAll v ks = lookupAll w ks
  | [], h => rfl
  | k :: ks, h => by
    have ih := lookupAll_congr_on (v := v) (w := w) (ks := ks) fun q hq => h q (by simp [hq])
    unfold lookupAll dictGet
    rw [h k (by simp), ih]

/-- The cost only depends on the variables of the residuals. -/
theorem totalCost_congr {v w : List (K × List ℝ)} : ∀ {l : List (Residual K (List ℝ) × Loss)},
    (∀ p ∈ l, ∀ q ∈ p.1.keys, v.lookup q = w.lookup q) → totalCost v l = totalCost w l
  | [], h => rfl
  | p :: l, h => by
    have ih := totalCost_congr (v := v) (w := w) (l := l) fun p hp => h p (by simp [hp])
    obtain ⟨r, ls⟩ := p
    unfold totalCost
    rw [lookupAll_congr_on (h (r, ls) (by simp)), ih]


theorem totalCost_snoc {v : List (K × List ℝ)} {r : Residual K (List ℝ)} {xs : List (List ℝ)} {E : List ℝ} :
    ∀ {l : List (Residual K (List ℝ) × Loss)} {c : ℝ}, totalCost v l = .ok c → lookupAll v r.keys = .ok xs → r.error xs = .ok E →
      totalCost v (l ++ [(r, l2Loss)]) = .ok (c + 1 / 2 * listNorm E ^ 2)
  | [], c, h, h1, h2 => by
    cases h
    show totalCost v [(r, l2Loss)] = _
    unfold totalCost
    rw [h1]
    show (r.error xs >>= _) = _
    rw [h2]
    show Except.ok (l2Loss.loss (listNorm E) + 0) = _
    congr 1
    simp only [l2Loss]
    ring
  | (q, ls) :: l, c, h, h1, h2 => by
    unfold totalCost at h
    obtain ⟨ys, g1, h⟩ := bind_ok h
    obtain ⟨E', g2, h⟩ := bind_ok h
    obtain ⟨c', g3, h⟩ := bind_ok h
    cases h
    have ih := totalCost_snoc g3 h1 h2
    rw [List.cons_append]
    unfold totalCost
    rw [g1, ok_bindE, g2, ok_bindE, ih]
    show Except.ok _ = Except.ok _
    congr 1
    ring

theorem sameShape_snoc {v0 : List (K × List ℝ)} {k : K} {x : List ℝ} : ∀ {v : List (K × List ℝ)}, SameShape (v0 ++ [(k, x)]) v →
    ∃ v1 y, v = v1 ++ [(k, y)] ∧ SameShape v0 v1 ∧ y.length = x.length := by
  intro v h
  obtain ⟨h1, h2⟩ := h
  have hne : v ≠ [] := by
    rintro rfl
    simp at h1
  obtain ⟨v1, ⟨q, y⟩, rfl⟩ : ∃ v1 p, v = v1 ++ [p] := ⟨v.dropLast, v.getLast hne, (List.dropLast_append_getLast hne).symm⟩
  simp only [List.map_append, List.map_cons, List.map_nil] at h1 h2
  obtain ⟨a1, a2⟩ := List.append_inj' h1 rfl
  obtain ⟨b1, b2⟩ := List.append_inj' h2 rfl
  simp only [List.cons.injEq, and_true] at a2 b2
  exact ⟨v1, y, by rw [a2], ⟨a1, b1⟩, b2⟩

theorem sameShape_snoc_mk {v0 v1 : List (K × List ℝ)} {k : K} {x y : List ℝ} (h : SameShape v0 v1) (hy : y.length = x.length) :
    SameShape (v0 ++ [(k, x)]) (v1 ++ [(k, y)]) := by
  obtain ⟨h1, h2⟩ := h
  refine ⟨?_, ?_⟩
  · rw [List.map_append, List.map_append, h1]; rfl
  · rw [List.map_append, List.map_append, h2, List.map_cons, List.map_cons, hy]

theorem valOf_snoc_ne {v : List (K × List ℝ)} {k q : K} {y : List ℝ} (h : q ≠ k) : valOf (v ++ [(k, y)]) q = valOf v q := by
  unfold valOf
  rw [lookup_append_ne _ _ h]

/-- The cost of the larger problem. -/
theorem attach_cost {P : Prob K (List ℝ)} (hP : LinearProblem P) {k : K} {x : List ℝ} {ks : List K} {r : Residual K (List ℝ)}
    (hQ : LinearProblem (attach P k x r)) (hr : Determines P k x ks r) {v : List (K × List ℝ)} (hv : SameShape P.varsInit v) (y : List ℝ)
    {c : ℝ} (hc : totalCost v (P.residuals.zip P.losses) = .ok c) :
    ∃ E, r.error (y :: ks.map (valOf v)) = .ok E ∧
      totalCost (v ++ [(k, y)]) ((attach P k x r).residuals.zip (attach P k x r).losses) = .ok (c + 1 / 2 * listNorm E ^ 2) := by
  have hk : k ∉ P.varsInit.map Prod.fst := by
    have := hQ.keys
    simp only [attach, List.map_append, List.map_cons, List.map_nil] at this
    rw [List.nodup_append] at this
    intro h
    exact this.2.2 k h k (by simp) rfl
  have hkv : k ∉ v.map Prod.fst := by rw [hv.1]; exact hk
  have hne : ∀ q y', P.varsInit.lookup q = some y' → q ≠ k := by
    rintro q y' hq rfl
    exact hk (List.mem_map.2 ⟨_, mem_of_lookup hq, rfl⟩)
  obtain ⟨E, hE⟩ : ∃ E, r.error (y :: ks.map (valOf v)) = .ok E := by
    obtain ⟨ks', Js, n, b, h1, -⟩ := hQ.residuals r (by simp [attach])
    rw [h1]
    exact ⟨_, rfl⟩
  refine ⟨E, hE, ?_⟩
  have hz : (attach P k x r).residuals.zip (attach P k x r).losses = P.residuals.zip P.losses ++ [(r, l2Loss)] := by
    show (P.residuals ++ [r]).zip (P.losses ++ [l2Loss]) = _
    rw [List.zip_append (by rw [hP.losses, List.length_map])]
    rfl
  rw [hz]
  refine totalCost_snoc (xs := y :: ks.map (valOf v)) ?_ ?_ hE
  · rw [← hc]
    refine totalCost_congr fun p hp q hq => lookup_append_ne _ _ ?_
    obtain ⟨ks', Js, n, b, h1, h2, h3, h4⟩ := hP.residuals p.1 (List.of_mem_zip hp).1
    rw [h1] at hq
    obtain ⟨t, ht, htq⟩ := List.getElem_of_mem hq
    have ht' : t < ks'.length := ht
    obtain ⟨-, z, hz, -⟩ := h4 t q (Js[t]'(by omega)) (by rw [List.getElem?_eq_getElem ht']; exact congrArg some htq) (List.getElem?_eq_getElem _)
    exact hne q z hz
  · rw [hr.keys, lookupAll_of]
    · congr 1
      rw [List.map_cons, lookup_append_self _ _ hkv]
      show y :: _ = _
      congr 1
      refine List.map_congr_left fun q hq => ?_
      obtain ⟨z, hz⟩ := hr.known q hq
      rw [lookup_append_ne _ _ (hne q z hz)]
      rfl
    · intro q hq
      rcases List.mem_cons.1 hq with rfl | hq
      · exact ⟨y, lookup_append_self _ _ hkv⟩
      · obtain ⟨z, hz⟩ := hr.known q hq
        obtain ⟨w, hw, -⟩ := hv.lookup hz
        exact ⟨w, by rw [lookup_append_ne _ _ (hne q z hz), hw]⟩

/-- **C140.** A linear problem is solved with Gauss-Newton. A variable is added with one residual, which determines it: whatever the values of the
other variables, exactly one value of the new one makes the residual zero. The larger problem is solved, from any value of the new variable:
it returns the same estimates, adds the value that makes the new residual zero, and the variances of all combinations of the old variables are the same. -/
theorem C140_attach (P P' : Prob K (List ℝ)) (hP : LinearProblem P) (hs : P.cfg.solver = "GN") (hit : 0 < P.cfg.maxIters)
    (h : P.solve vecVarOps = .ok P') (k : K) (x : List ℝ) (hx : x ≠ []) (hkc : k ∉ P.constKeys) (ks : List K) (r : Residual K (List ℝ))
    (hQ : LinearProblem (attach P k x r)) (hr : Determines P k x ks r) :
    ∃ (Q' : Prob K (List ℝ)) (y : List ℝ) (E : List ℝ), (attach P k x r).solve vecVarOps = .ok Q' ∧ Q'.vars = P'.vars ++ [(k, y)] ∧
      r.error (y :: ks.map (valOf P'.vars)) = .ok E ∧ listNorm E = 0 ∧
      (P.cov = none → ∀ k1 k2, IsFree P k1 → IsFree P k2 → ∃ C C' : DMat, (P'.getCovarianceBlock k1 k2).map Prod.fst = .ok (some C) ∧
        (Q'.getCovarianceBlock k1 k2).map Prod.fst = .ok (some C') ∧ C.Same C') := by
  obtain ⟨Q, hQd⟩ : ∃ Q, Q = attach P k x r := ⟨_, rfl⟩
  have hcostQ : ∀ v, SameShape P.varsInit v → ∀ y c, totalCost v (P.residuals.zip P.losses) = .ok c →
      ∃ E, r.error (y :: ks.map (valOf v)) = .ok E ∧ totalCost (v ++ [(k, y)]) (Q.residuals.zip Q.losses) = .ok (c + 1 / 2 * listNorm E ^ 2) := by
    intro v hv y c hc
    rw [hQd]
    exact attach_cost hP hQ hr hv y hc
  have hkn : k ∉ P.varsInit.map Prod.fst := by
    have := hQ.keys
    simp only [attach, List.map_append, List.map_cons, List.map_nil] at this
    rw [List.nodup_append] at this
    intro h
    exact this.2.2 k h k (by simp) rfl
  have hne : ∀ q y', P.varsInit.lookup q = some y' → q ≠ k := by
    rintro q y' hq rfl
    exact hkn (List.mem_map.2 ⟨_, mem_of_lookup hq, rfl⟩)
  rw [← hQd] at hQ ⊢
  have w1 : Q.varsInit = P.varsInit ++ [(k, x)] := by rw [hQd]; rfl
  have w2 : Q.constKeys = P.constKeys := by rw [hQd]; rfl
  have w5 : Q.cfg = P.cfg := by rw [hQd]; rfl
  have w6 : Q.cov = P.cov := by rw [hQd]; rfl
  clear hQd
  obtain ⟨hshape, hconst, cf, hcf, hmin⟩ := C40_linear P P' hP hs hit h
  obtain ⟨ys, hys, ⟨Es, hEs, hE0⟩, hyu⟩ := hr.value P'.vars hshape
  -- an allowed assignment of the larger problem
  have hback : ∀ V, Allowed Q V → ∃ v y, V = v ++ [(k, y)] ∧ Allowed P v ∧ y.length = x.length := by
    rintro V ⟨h1, h2⟩
    rw [w1] at h1 h2
    obtain ⟨v, y, rfl, h3, h4⟩ := sameShape_snoc h1
    refine ⟨v, y, rfl, ⟨h3, fun q hq => ?_⟩, h4⟩
    have hqk : q ≠ k := fun e => hkc (e ▸ hq)
    have := h2 q (by rw [w2]; exact hq)
    rwa [lookup_append_ne _ _ hqk, lookup_append_ne _ _ hqk] at this
  have hforth : ∀ v y, Allowed P v → y.length = x.length → Allowed Q (v ++ [(k, y)]) := by
    rintro v y ⟨h1, h2⟩ hy
    refine ⟨by rw [w1]; exact sameShape_snoc_mk h1 hy, fun q hq => ?_⟩
    rw [w2] at hq
    have hqk : q ≠ k := fun e => hkc (e ▸ hq)
    rw [w1, lookup_append_ne _ _ hqk, lookup_append_ne _ _ hqk]
    exact h2 q hq
  have hstarA : Allowed Q (P'.vars ++ [(k, ys)]) := hforth _ _ ⟨hshape, hconst⟩ hys
  have hstar : totalCost (P'.vars ++ [(k, ys)]) (Q.residuals.zip Q.losses) = .ok cf := by
    obtain ⟨E, g1, g2⟩ := hcostQ P'.vars hshape ys cf hcf
    rw [hEs] at g1
    obtain rfl := Except.ok.inj g1
    rw [g2, hE0]
    simp
  -- it is the unique minimizer
  have huniq : ∀ V c, Allowed Q V → totalCost V (Q.residuals.zip Q.losses) = .ok c → c ≤ cf → V = P'.vars ++ [(k, ys)] := by
    intro V c hV hc hle
    obtain ⟨v, y, rfl, hv, hy⟩ := hback V hV
    obtain ⟨c1, k1, k2, k3⟩ := hmin v hv.1 hv.2
    obtain ⟨E, g1, g2⟩ := hcostQ v hv.1 y c1 k1
    rw [hc] at g2
    have g2 := Except.ok.inj g2
    have hsq := sq_nonneg (listNorm E)
    have hv' : v = P'.vars := k3 (by linarith)
    subst hv'
    have hz : listNorm E = 0 := by
      have : listNorm E ^ 2 = 0 := by linarith
      exact pow_eq_zero_iff two_ne_zero |>.1 this
    rw [hyu y E hy g1 hz]
  obtain ⟨Q1, e', H', c', hQ1, hL', ha', hfit', hcost'⟩ := linear_coords hQ
  obtain ⟨w0, hw0⟩ := move_surjective hQ hQ1 hstarA.1 hstarA.2
  have hcf' := hcost' w0
  rw [hw0, hstar] at hcf'
  have hcf'' := Except.ok.inj hcf'
  have hdQ : (H'ᵀ * H').det ≠ 0 := by
    intro hd
    obtain ⟨w, hw, hwz⟩ := Matrix.exists_mulVec_eq_zero_iff.2 hd
    have hz : H' *ᵥ w = 0 := by
      have : vecNorm (H' *ᵥ w) ^ 2 = 0 := by rw [← gram_dot_eq, hwz, dotProduct_zero]
      exact vecNorm_zero_iff_zero (pow_eq_zero_iff two_ne_zero |>.1 this)
    have hc1 := hcost' (w0 + w)
    rw [mulVec_add, hz, add_zero, ← hcf''] at hc1
    have := huniq _ _ ⟨moveAll_shape _ _, fun k hk => moveAll_const _ hk⟩ hc1 le_rfl
    rw [← hw0] at this
    have hinj := moveAll_inj hQ hQ1 (δ := w0 + w) (δ' := w0) this
    exact hw (by simpa using hinj)
  have hnQ : 0 < Q1.sizeState := by
    obtain ⟨s, s1, s2, s3⟩ := hfit' (k, x) (by rw [w1]; simp) (by rw [w2]; exact hkc)
    have : 0 < x.length := List.length_pos_iff.2 hx
    simp only at s2
    omega
  have hsq : Q.cfg.solver = "GN" := by rw [w5]; exact hs
  have hitq : 0 < Q.cfg.maxIters := by rw [w5]; exact hit
  obtain ⟨Q', hQ'⟩ := C40_returns Q Q1 hQ hsq hitq hQ1 _ hL' hdQ hnQ
  obtain ⟨hshapeQ, hconstQ, cq, hcq, hminQ⟩ := C40_linear Q Q' hQ hsq hitq hQ'
  have hsame : Q'.vars = P'.vars ++ [(k, ys)] := by
    obtain ⟨c1, k1, k2, -⟩ := hminQ _ hstarA.1 hstarA.2
    rw [hstar] at k1
    obtain rfl := Except.ok.inj k1
    exact huniq _ _ ⟨hshapeQ, hconstQ⟩ hcq k2
  refine ⟨Q', ys, Es, hQ', hsame, hEs, hE0, fun hc => ?_⟩
  obtain ⟨C, hC, hCv⟩ := C140_variance P P' hP hs hit h hc
  obtain ⟨C', hC', hCv'⟩ := C140_variance Q Q' hQ hsq hitq hQ' (w6.trans hc)
  have hfree : ∀ q, IsFree P q → IsFree Q q := by
    rintro q ⟨⟨z, hz⟩, hq⟩
    exact ⟨⟨z, by rw [w1, lookup_append_ne _ _ (hne q z hz)]; exact hz⟩, by rw [w2]; exact hq⟩
  suffices hvar : ∀ (F : List K) (W : K → ℕ → ℝ), (∀ k ∈ F, IsFree P k) → comboVar C' F W = comboVar C F W by
    intro k1 k2 f1 f2
    obtain ⟨p1, p2, p3, p4⟩ := hC k1 k2 f1 f2
    obtain ⟨q1, q2, q3, q4⟩ := hC' k1 k2 (hfree _ f1) (hfree _ f2)
    have hlen : ∀ q, IsFree P q → (valOf Q.varsInit q).length = (valOf P.varsInit q).length := by
      rintro q ⟨⟨z, hz⟩, -⟩
      rw [w1, valOf_snoc_ne (hne q z hz)]
    rw [hlen k1 f1] at q2
    rw [hlen k2 f2] at q3
    refine ⟨_, _, p1, q1, p2.trans q2.symm, p3.trans q3.symm, fun i j hi hj => ?_⟩
    refine (combo_entries (C := C) (C' := C') (Ok := IsFree P) (len := fun q => (valOf P.varsInit q).length)
      (fun a b ha hb => (hC a b ha hb).2) (fun a b ha hb => ?_) hvar f1 f2 (by rw [← p2]; exact hi) (by rw [← p3]; exact hj)).symm
    obtain ⟨-, r2, r3, r4⟩ := hC' a b (hfree _ ha) (hfree _ hb)
    exact ⟨r2.trans (hlen a ha), r3.trans (hlen b hb), r4⟩
  intro F W hF
  have g1 := hCv F W hF
  have g2 := hCv' F W fun q hq => hfree q (hF q hq)
  rw [hsame] at g2
  have hdiff : ∀ v y, comboDiff F W (v ++ [(k, y)]) (P'.vars ++ [(k, ys)]) = comboDiff F W v P'.vars := by
    intro v y
    unfold comboDiff
    congr 1
    refine List.map_congr_left fun q hq => ?_
    obtain ⟨⟨z, hz⟩, -⟩ := hF q hq
    rw [valOf_snoc_ne (hne q z hz), valOf_snoc_ne (hne q z hz)]
  refine le_antisymm ?_ ?_
  · obtain ⟨V, c, c0, hV, hVc, hc0, ht⟩ := g2.1
    rw [hstar] at hc0
    obtain rfl := Except.ok.inj hc0
    obtain ⟨v, y, rfl, hv, hy⟩ := hback V hV
    obtain ⟨c1, k1, -, -⟩ := hmin v hv.1 hv.2
    obtain ⟨E, e1, e2⟩ := hcostQ v hv.1 y c1 k1
    rw [hVc] at e2
    have e2 := Except.ok.inj e2
    have hle := g1.2 ⟨v, c1, cf, hv, k1, hcf, rfl⟩
    have hsq := sq_nonneg (listNorm E)
    rw [hdiff] at ht
    rw [ht]
    linarith
  · obtain ⟨v, c, c0, hv, hvc, hc0, ht⟩ := g1.1
    rw [hcf] at hc0
    obtain rfl := Except.ok.inj hc0
    obtain ⟨y, hy, ⟨E0, q1, q2⟩, -⟩ := hr.value v hv.1
    obtain ⟨E, e1, e2⟩ := hcostQ v hv.1 y c hvc
    rw [q1] at e1
    obtain rfl := Except.ok.inj e1
    rw [q2] at e2
    refine g2.2 ⟨v ++ [(k, y)], _, cf, hforth v y hv hy, e2, hstar, ?_⟩
    rw [hdiff, ht]
    ring


/-! ### When a residual determines a variable -/

theorem listNorm_zero {l : List ℝ} : listNorm l = 0 ↔ ∀ x ∈ l, x = 0 := by
  unfold listNorm
  have hnn : ∀ l : List ℝ, 0 ≤ (l.map fun x => x * x).sum := fun l =>
    List.sum_nonneg fun t ht => by
      obtain ⟨x, -, rfl⟩ := List.mem_map.1 ht
      exact mul_self_nonneg x
  rw [Real.sqrt_eq_zero (hnn l)]
  induction l with
  | nil => simp
  | cons a l ih =>
    rw [List.map_cons, List.sum_cons]
    constructor
    · intro h
      have h1 := mul_self_nonneg a
      have h2 := hnn l
      have ha : a * a = 0 := by linarith
      have hl : (l.map fun x => x * x).sum = 0 := by linarith
      intro x hx
      rcases List.mem_cons.1 hx with rfl | hx
      · exact mul_self_eq_zero.1 ha
      · exact ih.1 hl x hx
    · intro h
      rw [h a (by simp), ih.2 fun x hx => h x (by simp [hx])]
      ring

/-- A residual whose Jacobian with respect to the new variable is square and invertible determines it: for instance a process residual and the
next state, or a prior. -/
theorem determines_of_det (P : Prob K (List ℝ)) (k : K) (x : List ℝ) (ks : List K) (J : DMat) (Js : List DMat) (b : ℕ → ℝ)
    (hknown : ∀ q ∈ ks, ∃ y, P.varsInit.lookup q = some y) (hJ : J.cols = x.length)
    (hd : (Matrix.of fun i j : Fin x.length => J.get i j).det ≠ 0) :
    Determines P k x ks (linRes (k :: ks) (J :: Js) x.length b) := by
  obtain ⟨M, hM⟩ : ∃ M : Mat x.length x.length, M = Matrix.of fun i j : Fin x.length => J.get i j := ⟨_, rfl⟩
  rw [← hM] at hd
  have hu : IsUnit M.det := isUnit_iff_ne_zero.2 hd
  refine ⟨rfl, hknown, fun v hv => ?_⟩
  obtain ⟨ρ, hρ⟩ : ∃ ρ : Vec x.length, ρ = fun a : Fin x.length => b a + ((Js.zip (ks.map (valOf v))).map fun p => ∑ c ∈ Finset.range p.1.cols,
    p.1.get a c * p.2.getD c 0).sum := ⟨_, rfl⟩
  have key : ∀ y : List ℝ, y.length = x.length →
      (listNorm (linErr x.length b (J :: Js) (y :: ks.map (valOf v))) = 0 ↔ (M *ᵥ fun c => y.getD c 0) = -ρ) := by
    intro y hy
    rw [listNorm_zero]
    have hent : ∀ a : Fin x.length, b a + (((J :: Js).zip (y :: ks.map (valOf v))).map fun p => ∑ c ∈ Finset.range p.1.cols,
        p.1.get a c * p.2.getD c 0).sum = ρ a + (M *ᵥ fun c => y.getD c 0) a := by
      intro a
      rw [List.zip_cons_cons, List.map_cons, List.sum_cons, hρ, hM, hJ, Finset.sum_range]
      show b a + (_ + _) = (b a + _) + ∑ c : Fin x.length, _ * _
      simp only [Matrix.of_apply]
      ring
    unfold linErr
    constructor
    · intro h
      funext a
      have := h _ (List.mem_map.2 ⟨a.1, List.mem_range.2 a.2, rfl⟩)
      rw [hent a] at this
      rw [Pi.neg_apply]
      linarith
    · intro h t ht
      obtain ⟨a, ha, rfl⟩ := List.mem_map.1 ht
      have := hent ⟨a, List.mem_range.1 ha⟩
      refine this.trans ?_
      rw [h, Pi.neg_apply]
      ring
  refine ⟨List.ofFn (M⁻¹ *ᵥ -ρ), List.length_ofFn, ⟨_, rfl, (key _ List.length_ofFn).2 ?_⟩, fun y' e hy' he hz => ?_⟩
  · have : (fun c : Fin x.length => (List.ofFn (M⁻¹ *ᵥ -ρ)).getD c 0) = M⁻¹ *ᵥ -ρ := by
      funext c
      rw [List.getD_eq_getElem?_getD, List.getElem?_ofFn, dif_pos c.2, Option.getD_some]
    rw [this, mulVec_mulVec, mul_nonsing_inv _ hu, one_mulVec]
  · obtain rfl := (Except.ok.inj he).symm
    have h1 := (key y' hy').1 hz
    have h2 : (fun c : Fin x.length => y'.getD c 0) = M⁻¹ *ᵥ -ρ := by
      rw [← h1, mulVec_mulVec, nonsing_inv_mul _ hu, one_mulVec]
    refine List.ext_getElem (by rw [hy', List.length_ofFn]) fun c c1 c2 => ?_
    have := congrFun h2 ⟨c, by omega⟩
    rw [List.getElem_ofFn, ← this]
    rw [List.getD_eq_getElem?_getD, List.getElem?_eq_getElem c1, Option.getD_some]

/-! ### A concrete case: `x + y - 5` and `x - 1`, with `z`, started at 7, attached by `z - y - 2 = 0` -/

/-- The residual `z - y - 2`. -/
noncomputable def exRes140 : Residual ℕ (List ℝ) := linRes [3, 2] [⟨1, 1, fun _ _ => 1⟩, ⟨1, 1, fun _ _ => -1⟩] 1 fun _ => -2

theorem exAttach : LinearProblem (attach exProb2 3 [7] exRes140) ∧ Determines exProb2 3 [7] [2] exRes140 := by
  constructor
  · refine ⟨by simp [attach, exProb2], rfl, fun r hr => ?_⟩
    have hr' : r ∈ exProb2.residuals ++ [exRes140] := hr
    rcases List.mem_append.1 hr' with hr | hr
    · obtain ⟨ks, Js, n, b, h1, h2, h3, h4⟩ := exProb2_linear.residuals r hr
      refine ⟨ks, Js, n, b, h1, h2, h3, fun t k J a1 a2 => ?_⟩
      obtain ⟨c1, x, c2, c3⟩ := h4 t k J a1 a2
      have hk : k ≠ 3 := by
        rintro rfl
        simp [exProb2, List.lookup] at c2
      exact ⟨c1, x, (lookup_append_ne _ _ hk).trans c2, c3⟩
    · rw [List.mem_singleton.1 hr]
      refine ⟨_, _, _, _, rfl, by simp, rfl, ?_⟩
      intro t k J h1 h2
      match t with
      | 0 =>
        simp only [List.getElem?_cons_zero, Option.some.injEq] at h1 h2
        subst h1 h2
        exact ⟨rfl, [7], rfl, rfl⟩
      | 1 =>
        simp only [List.getElem?_cons_zero, List.getElem?_cons_succ, Option.some.injEq] at h1 h2
        subst h1 h2
        exact ⟨rfl, [0], rfl, rfl⟩
      | t + 2 => simp at h1
  · refine determines_of_det exProb2 3 [7] [2] ⟨1, 1, fun _ _ => 1⟩ [⟨1, 1, fun _ _ => -1⟩] (fun _ => -2) ?_ rfl ?_
    · intro q hq
      rw [List.mem_singleton.1 hq]
      exact ⟨[0], rfl⟩
    · simp [Matrix.det_unique]

example : ∃ P' Q' y, exProb2.solve vecVarOps = .ok P' ∧ (attach exProb2 3 [7] exRes140).solve vecVarOps = .ok Q' ∧
    Q'.vars = P'.vars ++ [(3, y)] := by
  obtain ⟨P', hP'⟩ := exProb2_solve
  obtain ⟨Q', y, E, h1, h2, -⟩ := C140_attach exProb2 P' exProb2_linear rfl (by decide) hP' 3 [7] (by simp) (by simp [exProb2]) [2] exRes140
    exAttach.1 exAttach.2
  exact ⟨P', Q', y, hP', h1, h2⟩

end Verif
