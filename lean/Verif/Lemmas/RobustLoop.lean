import Verif.Lemmas.Robust

/-!
Gauss-Newton on a linear problem with extra robust residuals of small weight (for C137).
-/

set_option linter.unusedVariables false
set_option linter.unusedSectionVars false
set_option linter.unusedSimpArgs false

namespace Verif

open Matrix

variable {K : Type} [DecidableEq K]

/-- Near `δs` the pieces `outs` have little influence: at every point within `B` of `δs` their weighted residuals are at most `s`. -/
def Quiet {n : ℕ} (outs : List (Piece n)) (δs : Vec n) (B s : ℝ) : Prop :=
  ∀ δ : Vec n, vecNorm (δ - δs) ≤ B → (outs.map fun p => p.w δ * (frob p.H * vecNorm (p.res δs))).sum ≤ s

theorem gram_sum_dot {n : ℕ} (outs : List (Piece n)) (δ : Vec n) (hw : ∀ p ∈ outs, 0 ≤ p.w δ) (u : Vec n) :
    0 ≤ u ⬝ᵥ (outs.map fun p => p.A δ).sum *ᵥ u := by
  rw [sum_mulVec', dot_sum']
  refine List.sum_nonneg fun x hx => ?_
  obtain ⟨p, hp, rfl⟩ := List.mem_map.1 hx
  unfold Piece.A
  rw [smul_mulVec, dotProduct_smul, gram_dot_eq]
  exact mul_nonneg (hw p hp) (sq_nonneg _)

theorem robust_lower {n : ℕ} {A0 : Mat n n} {l : ℝ} (hA0 : ∀ v : Vec n, l * vecNorm v ^ 2 ≤ v ⬝ᵥ A0 *ᵥ v) (outs : List (Piece n))
    (δ : Vec n) (hw : ∀ p ∈ outs, 0 ≤ p.w δ) (v : Vec n) :
    l * vecNorm v ^ 2 ≤ v ⬝ᵥ (A0 + (outs.map fun p => p.A δ).sum) *ᵥ v := by
  rw [add_mulVec, dotProduct_add]
  have := hA0 v
  have := gram_sum_dot outs δ hw v
  linarith

theorem vecNorm_zero_iff_zero {n : ℕ} {v : Vec n} (h : vecNorm v = 0) : v = 0 := by
  have := vecNorm_sq v
  rw [h] at this
  exact dotProduct_self_eq_zero.1 (by rw [← this]; norm_num)

theorem det_of_lower {n : ℕ} {A : Mat n n} {l : ℝ} (hl : 0 < l) (h : ∀ v : Vec n, l * vecNorm v ^ 2 ≤ v ⬝ᵥ A *ᵥ v) : A.det ≠ 0 := by
  intro hd
  obtain ⟨v, hv, hv'⟩ := Matrix.exists_mulVec_eq_zero_iff.2 hd
  have := h v
  rw [hv', dotProduct_zero] at this
  refine hv (vecNorm_zero_iff_zero ?_)
  have h0 := sq_nonneg (vecNorm v)
  have : vecNorm v ^ 2 = 0 := by nlinarith
  exact pow_eq_zero_iff (two_ne_zero) |>.1 this

/-- The inverse of a matrix that is bounded below. -/
theorem inv_norm_le {n : ℕ} {A : Mat n n} {l : ℝ} (hl : 0 < l) (h : ∀ v : Vec n, l * vecNorm v ^ 2 ≤ v ⬝ᵥ A *ᵥ v) (u : Vec n) :
    l * vecNorm (A⁻¹ *ᵥ u) ≤ vecNorm u := by
  have hu : IsUnit A.det := isUnit_iff_ne_zero.2 (det_of_lower hl h)
  obtain ⟨w, hw⟩ : ∃ w, w = A⁻¹ *ᵥ u := ⟨_, rfl⟩
  have h1 : A *ᵥ w = u := by rw [hw, mulVec_mulVec, mul_nonsing_inv _ hu, one_mulVec]
  have h2 := h w
  rw [h1] at h2
  have h3 := (abs_le.1 (dot_le_norm w u)).2
  rw [← hw]
  rcases (vecNorm_nonneg w).eq_or_lt with h0 | h0
  · rw [← h0, mul_zero]; exact vecNorm_nonneg u
  · nlinarith

/-- The loop. -/
theorem robust_loop {P : Prob K (List ℝ)} {v0 : List (K × List ℝ)} {A0 : Mat P.sizeState P.sizeState} {outs : List (Piece P.sizeState)}
    {δs : Vec P.sizeState} {l B η : ℝ} (hl : 0 < l) (hA0 : ∀ v, l * vecNorm v ^ 2 ≤ v ⬝ᵥ A0 *ᵥ v)
    (hw : ∀ p ∈ outs, ∀ x, 0 ≤ p.loss.weight x) (hq : Quiet outs δs B (l * η)) (hη : η ≤ B) (hn : 0 < P.sizeState)
    (hfit : SlicesFit P.constKeys P.varSlices P.sizeState v0)
    (hlin : ∀ δ : Vec P.sizeState, ∃ (m : ℕ) (e : Vec m) (H : Mat m P.sizeState) (c : ℝ),
      P.linearize (moveAll P.constKeys P.varSlices δ v0) = .ok ⟨m, P.sizeState, e, H, c⟩ ∧
      Hᵀ * H = A0 + (outs.map fun p => p.A δ).sum ∧ Hᵀ *ᵥ e = A0 *ᵥ (δ - δs) + (outs.map fun p => p.b δ).sum) :
    ∀ (k : ℕ) (s : LoopState K (List ℝ)) (δ : Vec P.sizeState), s.vars = moveAll P.constKeys P.varSlices δ v0 →
      vecNorm (δ - δs) ≤ B → P.linearize s.vars = .ok s.lin →
      ((vecNorm (δ - δs) ≤ η ∧ ∃ δp : Vec P.sizeState, vecNorm (δp - δs) ≤ B ∧
          s.info = some ⟨P.sizeState, A0 + (outs.map fun p => p.A δp).sum⟩) ∨ (0 < k ∧ s.deltaCost = none)) →
      ∃ (s' : LoopState K (List ℝ)) (δ' δp : Vec P.sizeState), iterLoop (gnStep vecVarOps P) k s = .ok s' ∧
        s'.vars = moveAll P.constKeys P.varSlices δ' v0 ∧ vecNorm (δ' - δs) ≤ η ∧ vecNorm (δp - δs) ≤ B ∧
        s'.info = some ⟨P.sizeState, A0 + (outs.map fun p => p.A δp).sum⟩ ∧ ∃ L, P.linearize s'.vars = .ok L
  | 0, s, δ, h1, h2, h3, h4 => by
    rcases h4 with ⟨h4, δp, h5, h6⟩ | ⟨h4, -⟩
    · exact ⟨s, δ, δp, rfl, h1, h4, h5, h6, _, h3⟩
    · exact absurd h4 (lt_irrefl _)
  | k + 1, s, δ, h1, h2, h3, h4 => by
    by_cases hconv : isConverged P.cfg s.deltaCost (s.costs.headD 0) s.dx s.gradNorm = true
    · rcases h4 with ⟨h4, δp, h5, h6⟩ | ⟨-, h4⟩
      · refine ⟨s, δ, δp, ?_, h1, h4, h5, h6, _, h3⟩
        unfold iterLoop gnStep
        rw [if_pos hconv]
        rfl
      · rw [h4] at hconv; simp [isConverged] at hconv
    · obtain ⟨m, e, H, c, g1, g2, g3⟩ := hlin δ
      obtain ⟨d, hd⟩ : ∃ d, d = (Hᵀ * H)⁻¹ *ᵥ (-(Hᵀ *ᵥ e)) := ⟨_, rfl⟩
      have hlow := robust_lower hA0 outs δ fun p hp => hw p hp _
      have hdet : (Hᵀ * H).det ≠ 0 := by
        rw [g2]
        exact det_of_lower hl hlow
      have hclose : vecNorm (δ + d - δs) ≤ η := by
        have hsc := step_close hl hA0 outs δ δs d (fun p hp => hw p hp _) (by
          rw [← g2, ← g3, hd, mulVec_mulVec, mul_nonsing_inv _ (isUnit_iff_ne_zero.2 hdet), one_mulVec])
        exact le_of_mul_le_mul_left (hsc.trans (hq δ h2)) hl
      obtain ⟨m', e', H', c', k1, -, -⟩ := hlin (δ + d)
      have hlin' : s.lin = ⟨m, P.sizeState, e, H, c⟩ := by
        rw [h1, g1] at h3
        exact (Except.ok.inj h3).symm
      have hstep : ∃ r : LoopState K (List ℝ), gnStep vecVarOps P s = .ok (r, false) ∧
          r.vars = moveAll P.constKeys P.varSlices (δ + d) v0 ∧ P.linearize r.vars = .ok r.lin ∧
          r.info = some ⟨P.sizeState, A0 + (outs.map fun p => p.A δ).sum⟩ := by
        obtain ⟨sv, sl, sc, sd, sg, sx, si, smu, snu⟩ := s
        simp only at hlin' h1 hconv
        subst hlin' h1
        have hsp : spsolve (Lin.mk m P.sizeState e H c).A (Lin.mk m P.sizeState e H c).b = .ok d := by
          rw [hd]
          exact if_neg hdet
        have hc := correct_vec d (moveAll_fit (δ := δ) hfit)
        rw [moveAll_add] at hc
        unfold gnStep
        rw [if_neg hconv]
        simp only [hsp, hc, k1, bind, Except.bind]
        unfold Lin.gradNorm npMax
        simp only [hn, dif_pos]
        refine ⟨_, rfl, rfl, k1, ?_⟩
        show some (⟨P.sizeState, Hᵀ * H⟩ : SqMat) = _
        rw [g2]
      obtain ⟨r, hr, hr1, hr2, hr3⟩ := hstep
      obtain ⟨s', δ', δp, f1, f2⟩ := robust_loop hl hA0 hw hq hη hn hfit hlin k r (δ + d) hr1 (hclose.trans hη) hr2
        (Or.inl ⟨hclose, δ, h2, hr3⟩)
      refine ⟨s', δ', δp, ?_, f2⟩
      unfold iterLoop
      rw [hr]
      exact f1

/-- And the whole call. -/
theorem robust_solve {Q Q1 : Prob K (List ℝ)} (hs : Q.cfg.solver = "GN") (hit : 0 < Q.cfg.maxIters) (h : Q.started vecVarOps = .ok Q1)
    {A0 : Mat Q1.sizeState Q1.sizeState} {outs : List (Piece Q1.sizeState)}
    {δs : Vec Q1.sizeState} {l B η : ℝ} (hl : 0 < l) (hA0 : ∀ v, l * vecNorm v ^ 2 ≤ v ⬝ᵥ A0 *ᵥ v)
    (hw : ∀ p ∈ outs, ∀ x, 0 ≤ p.loss.weight x) (hq : Quiet outs δs B (l * η)) (hη : η ≤ B) (hB : vecNorm δs ≤ B) (hn : 0 < Q1.sizeState)
    (hfit : SlicesFit Q1.constKeys Q1.varSlices Q1.sizeState Q.varsInit)
    (hlin : ∀ δ : Vec Q1.sizeState, ∃ (m : ℕ) (e : Vec m) (H : Mat m Q1.sizeState) (c : ℝ),
      Q1.linearize (moveAll Q1.constKeys Q1.varSlices δ Q.varsInit) = .ok ⟨m, Q1.sizeState, e, H, c⟩ ∧
      Hᵀ * H = A0 + (outs.map fun p => p.A δ).sum ∧ Hᵀ *ᵥ e = A0 *ᵥ (δ - δs) + (outs.map fun p => p.b δ).sum) :
    ∃ (Q' : Prob K (List ℝ)) (δ' δp : Vec Q1.sizeState), Q.solve vecVarOps = .ok Q' ∧
      Q'.vars = moveAll Q1.constKeys Q1.varSlices δ' Q.varsInit ∧ vecNorm (δ' - δs) ≤ η ∧ vecNorm (δp - δs) ≤ B ∧
      Q'.info = some ⟨Q1.sizeState, A0 + (outs.map fun p => p.A δp).sum⟩ ∧ Q'.varSlices = Q1.varSlices ∧ Q'.cov = Q.cov := by
  obtain ⟨e1, e2, e3, e4, e5, e6, e7, e8⟩ := started_fields h
  obtain ⟨m, e, H, c, g1, -, -⟩ := hlin 0
  rw [moveAll_zero] at g1
  obtain ⟨s', δ', δp, f1, f2, f3, f4, f5, L', f6⟩ := robust_loop hl hA0 hw hq hη hn hfit hlin Q1.cfg.maxIters
    ⟨Q.varsInit, ⟨m, Q1.sizeState, e, H, c⟩, [c], none, none, 10, none, 0, 0⟩ 0 (moveAll_zero _ _ _).symm
    (by rw [zero_sub, vecNorm_neg]; exact hB) g1 (Or.inr ⟨by rw [e1]; exact hit, rfl⟩)
  obtain ⟨I, hI⟩ : ∃ I : SqMat, I = ⟨Q1.sizeState, A0 + (outs.map fun p => p.A δp).sum⟩ := ⟨_, rfl⟩
  rw [← hI] at f5
  refine ⟨{ Q1 with vars := s'.vars, costHistory := (L'.cost :: s'.costs).reverse, info := some I }, δ', δp, ?_, f2, f3, f4, congrArg some hI, rfl, e8⟩
  unfold Prob.solve
  show (do let P1 ← Q.started vecVarOps; _ : Except Err (Prob K (List ℝ))) = _
  rw [h]
  simp only [bind, Except.bind]
  rw [if_pos hs]
  unfold solveGN
  rw [e6, g1]
  simp only [bind, Except.bind]
  rw [f1]
  simp only [f6, f5]

/-- Small weights: the inverse of the information matrix hardly changes. -/
theorem inv_close {n : ℕ} {A0 : Mat n n} {l : ℝ} (hl : 0 < l) (hA0 : ∀ v : Vec n, l * vecNorm v ^ 2 ≤ v ⬝ᵥ A0 *ᵥ v) (outs : List (Piece n))
    (δ : Vec n) (hw : ∀ p ∈ outs, 0 ≤ p.w δ) (i j : Fin n) :
    l ^ 2 * |((A0 + (outs.map fun p => p.A δ).sum)⁻¹) i j - A0⁻¹ i j| ≤ (outs.map fun p => p.w δ * (frob p.Hᵀ * frob p.H)).sum := by
  obtain ⟨E, hE⟩ : ∃ E, E = (outs.map fun p => p.A δ).sum := ⟨_, rfl⟩
  have hlow := robust_lower hA0 outs δ hw
  rw [← hE] at hlow ⊢
  have u0 : IsUnit A0.det := isUnit_iff_ne_zero.2 (det_of_lower hl hA0)
  have u1 : IsUnit (A0 + E).det := isUnit_iff_ne_zero.2 (det_of_lower hl hlow)
  have h1 : (A0 + E)⁻¹ - A0⁻¹ = -((A0 + E)⁻¹ * (E * A0⁻¹)) := by
    have : E * A0⁻¹ = (A0 + E) * A0⁻¹ - 1 := by rw [Matrix.add_mul, mul_nonsing_inv _ u0]; abel
    rw [this, Matrix.mul_sub, ← Matrix.mul_assoc, nonsing_inv_mul _ u1, Matrix.one_mul, Matrix.mul_one]
    abel
  obtain ⟨z, hz⟩ : ∃ z, z = A0⁻¹ *ᵥ Pi.single j 1 := ⟨_, rfl⟩
  have h2 : (A0 + E)⁻¹ i j - A0⁻¹ i j = -(((A0 + E)⁻¹ *ᵥ (E *ᵥ z)) i) := by
    rw [← Matrix.sub_apply, h1, hz, mulVec_mulVec, mulVec_mulVec, Matrix.neg_apply, mulVec_single_one, Matrix.mul_assoc]
    rfl
  have hs1 : vecNorm (Pi.single j 1 : Vec n) = 1 := by unfold vecNorm; simp
  have hz1 : l * vecNorm z ≤ 1 := by rw [hz]; exact (inv_norm_le hl hA0 _).trans hs1.le
  have h3 := inv_norm_le hl hlow (E *ᵥ z)
  have h4 := entry_le_norm ((A0 + E)⁻¹ *ᵥ (E *ᵥ z)) i
  have h5 : vecNorm (E *ᵥ z) ≤ (outs.map fun p => p.w δ * (frob p.Hᵀ * frob p.H)).sum * vecNorm z := by
    rw [hE, sum_mulVec']
    clear hE h1 h2 h3 h4 hlow u1
    induction outs with
    | nil => simp [vecNorm]
    | cons p outs ih =>
      simp only [List.map_cons, List.sum_cons]
      refine (vecNorm_add _ _).trans ?_
      rw [add_mul]
      refine add_le_add ?_ (ih fun q hq => hw q (List.mem_cons_of_mem _ hq))
      have w0 := hw p List.mem_cons_self
      have e1 : vecNorm (p.A δ *ᵥ z) = p.w δ * vecNorm (p.Hᵀ *ᵥ (p.H *ᵥ z)) := by
        unfold Piece.A
        rw [smul_mulVec, mulVec_mulVec]
        unfold vecNorm
        rw [dotProduct_smul, smul_dotProduct, smul_smul, smul_eq_mul, Real.sqrt_mul (mul_self_nonneg _), Real.sqrt_mul_self w0]
      rw [e1, mul_assoc, mul_assoc]
      refine mul_le_mul_of_nonneg_left ((norm_mulVec_le _ _).trans ?_) w0
      exact mul_le_mul_of_nonneg_left (norm_mulVec_le _ _) (frob_nonneg _)
  rw [h2, abs_neg]
  have hS : 0 ≤ (outs.map fun p => p.w δ * (frob p.Hᵀ * frob p.H)).sum := by
    refine List.sum_nonneg fun x hx => ?_
    obtain ⟨p, hp, rfl⟩ := List.mem_map.1 hx
    exact mul_nonneg (hw p hp) (mul_nonneg (frob_nonneg _) (frob_nonneg _))
  have a1 : l * |((A0 + E)⁻¹ *ᵥ (E *ᵥ z)) i| ≤ (outs.map fun p => p.w δ * (frob p.Hᵀ * frob p.H)).sum * vecNorm z :=
    (mul_le_mul_of_nonneg_left h4 hl.le).trans (h3.trans h5)
  calc l ^ 2 * |((A0 + E)⁻¹ *ᵥ (E *ᵥ z)) i| = l * (l * |((A0 + E)⁻¹ *ᵥ (E *ᵥ z)) i|) := by ring
    _ ≤ l * ((outs.map fun p => p.w δ * (frob p.Hᵀ * frob p.H)).sum * vecNorm z) := mul_le_mul_of_nonneg_left a1 hl.le
    _ = (outs.map fun p => p.w δ * (frob p.Hᵀ * frob p.H)).sum * (l * vecNorm z) := by ring
    _ ≤ _ := by
      have := mul_le_mul_of_nonneg_left hz1 hS
      rwa [mul_one] at this

end Verif
