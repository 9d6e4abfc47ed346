import Verif.Props.Local
import Verif.Props.Damping

/-!
C145: on perfect data Levenberg-Marquardt converges linearly to the truth from every good enough initial guess.
-/

set_option linter.unusedVariables false
set_option linter.unusedSectionVars false
set_option linter.unusedSimpArgs false

namespace Verif

open Matrix

variable {K S : Type} [DecidableEq K]

/-! ### One step -/

/-- The damped step from the displacement `δ` shrinks it. -/
theorem damped_shrink {m n : ℕ} {H : Mat m n} {σ C μ : ℝ} (hσ : 0 < σ) (hlo : ∀ u, σ * vecNorm u ≤ vecNorm (H *ᵥ u)) {δ d : Vec n} {e : Vec m}
    (he : vecNorm (e - H *ᵥ δ) ≤ C * vecNorm δ ^ 2) (hC : C * vecNorm δ ≤ σ / 2) (hμ : 0 ≤ μ)
    (hd : (Hᵀ * H + μ • (1 : Mat n n)) *ᵥ d = -(Hᵀ *ᵥ e)) :
    (μ + σ ^ 2) * vecNorm (δ + d) ≤ (μ + σ ^ 2 / 2) * vecNorm δ := by
  have hD := vecNorm_nonneg δ
  have hY := vecNorm_nonneg (δ + d)
  obtain ⟨y, hy⟩ : ∃ y, y = δ + d := ⟨_, rfl⟩
  rw [← hy] at hY ⊢
  have hd' : Hᵀ *ᵥ (H *ᵥ d) + μ • d = -(Hᵀ *ᵥ e) := by
    rw [← hd, add_mulVec, smul_mulVec, one_mulVec, mulVec_mulVec]
  have h1 : Hᵀ *ᵥ (H *ᵥ y) + μ • y = Hᵀ *ᵥ (H *ᵥ δ - e) + μ • δ := by
    rw [hy, mulVec_add H, mulVec_add Hᵀ, mulVec_sub, smul_add, sub_eq_add_neg, ← hd']
    abel
  have h2 : vecNorm (H *ᵥ y) ^ 2 + μ * vecNorm y ^ 2 = (H *ᵥ y) ⬝ᵥ (H *ᵥ δ - e) + μ * (y ⬝ᵥ δ) := by
    have := congrArg (fun w => y ⬝ᵥ w) h1
    simp only [dotProduct_add, dotProduct_smul, smul_eq_mul] at this
    rw [dotProduct_mulVec _ Hᵀ, vecMul_transpose, dotProduct_mulVec _ Hᵀ, vecMul_transpose] at this
    rw [vecNorm_sq, vecNorm_sq]
    exact this
  have h3 := (abs_le.1 (dot_le_norm (H *ᵥ y) (H *ᵥ δ - e))).2
  have h4 := (abs_le.1 (dot_le_norm y δ)).2
  rw [vecNorm_sub] at h3
  have h5 := hlo y
  have ha0 := vecNorm_nonneg (H *ᵥ y)
  generalize vecNorm (H *ᵥ y) = a at *
  generalize vecNorm (e - H *ᵥ δ) = c at *
  generalize vecNorm y = Y at *
  generalize vecNorm δ = D at *
  by_contra hcon
  rw [not_le] at hcon
  have hc : c ≤ σ / 2 * D := by
    refine he.trans ?_
    rw [sq, ← mul_assoc]
    exact mul_le_mul_of_nonneg_right hC hD
  have hden : 0 < μ + σ ^ 2 := by positivity
  have hYD : D / 2 < Y := by
    have : (μ + σ ^ 2) * (D / 2) ≤ (μ + σ ^ 2 / 2) * D := by nlinarith
    exact lt_of_mul_lt_mul_left (this.trans_lt hcon) hden.le
  have hY0 : 0 < Y := by linarith
  have hcY : c ≤ σ * Y := by nlinarith
  have h6 : 0 ≤ (a - σ * Y) * (a + σ * Y - c) := mul_nonneg (by linarith) (by linarith)
  have h7 : μ * (y ⬝ᵥ δ) ≤ μ * (Y * D) := mul_le_mul_of_nonneg_left h4 hμ
  have h8 : Y * ((μ + σ ^ 2) * Y) ≤ Y * ((μ + σ ^ 2 / 2) * D) := by
    have : σ * Y * c ≤ σ * Y * (σ / 2 * D) := mul_le_mul_of_nonneg_left hc (by positivity)
    nlinarith
  exact absurd (le_of_mul_le_mul_left h8 hY0) (not_le.2 hcon)

/-- The predicted decrease of a damped step, and what it predicts. -/
theorem damped_gain {m n : ℕ} {H : Mat m n} {μ : ℝ} {d : Vec n} {e : Vec m} (hd : (Hᵀ * H + μ • (1 : Mat n n)) *ᵥ d = -(Hᵀ *ᵥ e)) :
    gainDen d (Hᵀ *ᵥ e) μ = μ * vecNorm d ^ 2 + 1 / 2 * vecNorm (H *ᵥ d) ^ 2 ∧
      1 / 2 * vecNorm e ^ 2 - 1 / 2 * vecNorm (e + H *ᵥ d) ^ 2 = gainDen d (Hᵀ *ᵥ e) μ := by
  have h1 : vecNorm (H *ᵥ d) ^ 2 + μ * vecNorm d ^ 2 = -((H *ᵥ d) ⬝ᵥ e) := by
    have := congrArg (fun w => d ⬝ᵥ w) hd
    rw [add_mulVec, smul_mulVec, one_mulVec, ← mulVec_mulVec] at this
    simp only [dotProduct_add, dotProduct_smul, smul_eq_mul, dotProduct_neg] at this
    rw [dotProduct_mulVec _ Hᵀ, vecMul_transpose, dotProduct_mulVec _ Hᵀ, vecMul_transpose] at this
    rw [vecNorm_sq, vecNorm_sq]
    exact this
  have h2 : gainDen d (Hᵀ *ᵥ e) μ = μ * vecNorm d ^ 2 + 1 / 2 * vecNorm (H *ᵥ d) ^ 2 := by
    unfold gainDen
    rw [dotProduct_sub, dotProduct_smul, smul_eq_mul, dotProduct_mulVec _ Hᵀ, vecMul_transpose, ← vecNorm_sq]
    linarith
  refine ⟨h2, ?_⟩
  rw [h2, vecNorm_sq (e + _), add_dotProduct, dotProduct_add, dotProduct_add, ← vecNorm_sq, ← vecNorm_sq, dotProduct_comm e]
  linarith

/-- At least half of the predicted decrease is achieved. -/
theorem damped_accept {m n : ℕ} {H H' H0 : Mat m n} {σ C μ h β : ℝ} (hσ : 0 < σ) (hC0 : 0 ≤ C) (hμ : 0 ≤ μ) (hβ1 : β < 1) {δ d : Vec n} {e e' : Vec m}
    (hlo : ∀ u, σ * vecNorm u ≤ vecNorm (H *ᵥ u)) (hh : ∀ u, vecNorm (H0 *ᵥ u) ≤ h * vecNorm u) (hh0 : 0 ≤ h)
    (he : vecNorm (e - H *ᵥ δ) ≤ C * vecNorm δ ^ 2) (hC : C * vecNorm δ ≤ σ / 2) (hH : ∀ u, vecNorm (H *ᵥ u - H0 *ᵥ u) ≤ C * vecNorm δ * vecNorm u)
    (he' : vecNorm (e' - H' *ᵥ (δ + d)) ≤ C * vecNorm (δ + d) ^ 2) (hH' : ∀ u, vecNorm (H' *ᵥ u - H0 *ᵥ u) ≤ C * vecNorm (δ + d) * vecNorm u)
    (hd : (Hᵀ * H + μ • (1 : Mat n n)) *ᵥ d = -(Hᵀ *ᵥ e)) (hY : vecNorm (δ + d) ≤ vecNorm δ) (hdn : (1 - β) * vecNorm δ ≤ vecNorm d)
    (hsmall : 16 * (C * (h + 2 * σ)) * vecNorm δ ≤ σ ^ 2 * (1 - β) ^ 2) :
    1 / 2 * gainDen d (Hᵀ *ᵥ e) μ ≤ 1 / 2 * vecNorm e ^ 2 - 1 / 2 * vecNorm e' ^ 2 := by
  obtain ⟨g1, g2⟩ := damped_gain hd
  obtain ⟨p, hp⟩ : ∃ p, p = e + H *ᵥ d := ⟨_, rfl⟩
  have hD := vecNorm_nonneg δ
  have hY0 := vecNorm_nonneg (δ + d)
  have hdiff : vecNorm (e' - p) ≤ 4 * C * vecNorm δ ^ 2 := by
    have e1 : e' - p = ((e' - H' *ᵥ (δ + d)) + (H' *ᵥ (δ + d) - H0 *ᵥ (δ + d))) + (-(H *ᵥ (δ + d) - H0 *ᵥ (δ + d)) + -(e - H *ᵥ δ)) := by
      rw [hp, mulVec_add H]
      abel
    rw [e1]
    refine (vecNorm_add _ _).trans ?_
    have a1 := vecNorm_add (e' - H' *ᵥ (δ + d)) (H' *ᵥ (δ + d) - H0 *ᵥ (δ + d))
    have a2 := vecNorm_add (-(H *ᵥ (δ + d) - H0 *ᵥ (δ + d))) (-(e - H *ᵥ δ))
    rw [vecNorm_neg, vecNorm_neg] at a2
    have a3 := hH (δ + d)
    have a4 := hH' (δ + d)
    have b1 : C * vecNorm (δ + d) ^ 2 ≤ C * vecNorm δ ^ 2 := mul_le_mul_of_nonneg_left (pow_le_pow_left₀ hY0 hY 2) hC0
    have b2 : C * vecNorm δ * vecNorm (δ + d) ≤ C * vecNorm δ ^ 2 := by
      rw [sq, ← mul_assoc]
      exact mul_le_mul_of_nonneg_left hY (by positivity)
    have b3 : C * vecNorm (δ + d) * vecNorm (δ + d) ≤ C * vecNorm δ ^ 2 := by rw [mul_assoc, ← sq]; exact b1
    linarith
  have hen : vecNorm e ≤ (h + σ) * vecNorm δ := by
    have a1 := vecNorm_add (e - H *ᵥ δ) ((H *ᵥ δ - H0 *ᵥ δ) + H0 *ᵥ δ)
    rw [sub_add_cancel, sub_add_cancel] at a1
    have a2 := vecNorm_add (H *ᵥ δ - H0 *ᵥ δ) (H0 *ᵥ δ)
    rw [sub_add_cancel] at a2
    have a3 := hH δ
    have a4 := hh δ
    have a5 : C * vecNorm δ * vecNorm δ ≤ σ / 2 * vecNorm δ := mul_le_mul_of_nonneg_right hC hD
    have a6 : C * vecNorm δ ^ 2 = C * vecNorm δ * vecNorm δ := by ring
    rw [a6] at he
    linarith
  have hden0 : 0 ≤ gainDen d (Hᵀ *ᵥ e) μ := by rw [g1]; positivity
  have hpe : vecNorm p ≤ vecNorm e := by
    rw [← hp] at g2
    refine (pow_le_pow_iff_left₀ (vecNorm_nonneg _) (vecNorm_nonneg _) two_ne_zero).1 ?_
    linarith
  have hq : vecNorm e' ≤ vecNorm p + 4 * C * vecNorm δ ^ 2 := by
    have := vecNorm_add p (e' - p)
    rw [add_sub_cancel] at this
    linarith
  have hden : 1 / 2 * (σ ^ 2 * ((1 - β) ^ 2 * vecNorm δ ^ 2)) ≤ gainDen d (Hᵀ *ᵥ e) μ := by
    have a1 : (1 - β) ^ 2 * vecNorm δ ^ 2 ≤ vecNorm d ^ 2 := by
      rw [← mul_pow]
      exact pow_le_pow_left₀ (mul_nonneg (by linarith) hD) hdn 2
    have a2 : σ ^ 2 * vecNorm d ^ 2 ≤ vecNorm (H *ᵥ d) ^ 2 := by
      rw [← mul_pow]
      exact pow_le_pow_left₀ (mul_nonneg hσ.le (vecNorm_nonneg _)) (hlo d) 2
    have a3 := mul_le_mul_of_nonneg_left a1 (sq_nonneg σ)
    have a4 : 0 ≤ μ * vecNorm d ^ 2 := by positivity
    rw [g1]
    linarith
  rw [← hp] at g2
  have hp0 := vecNorm_nonneg p
  have he'0 := vecNorm_nonneg e'
  generalize gainDen d (Hᵀ *ᵥ e) μ = G at *
  generalize vecNorm e' = q at *
  generalize vecNorm p = pp at *
  generalize vecNorm e = ee at *
  generalize vecNorm δ = D at *
  have s1 : q ^ 2 ≤ (pp + 4 * C * D ^ 2) ^ 2 := pow_le_pow_left₀ he'0 hq 2
  have s2 : pp * (C * D ^ 2) ≤ (h + σ) * D * (C * D ^ 2) := mul_le_mul_of_nonneg_right (hpe.trans hen) (by positivity)
  have s3 : C * D * (C * D ^ 3) ≤ σ / 2 * (C * D ^ 3) := mul_le_mul_of_nonneg_right hC (by positivity)
  have s4 := mul_le_mul_of_nonneg_right hsmall (sq_nonneg D)
  nlinarith

/-! ### The loop -/

/-- A state of the loop at displacement `δ`. -/
structure LmNear (o : VarOps S) (P : Prob K S) (v : List (K × S)) {n : ℕ} (μm : ℝ) (δ : Vec n) (s : LoopState K S) : Prop where
  vars : correctStates o P.constKeys P.varSlices (List.ofFn δ) v = .ok s.vars
  lin : P.linearize s.vars = .ok s.lin
  head : s.costs.headD 0 = s.lin.cost
  mu : 0 ≤ s.mu
  nu : 0 ≤ s.nu
  bound : δ = 0 ∨ s.mu ≤ μm

theorem gain_half {num den : ℝ} (hd : 0 < den) (h : 1 / 2 * den ≤ num) :
    gainPositive num den = true ∧ 0 ≤ gainFactor num den ∧ gainFactor num den ≤ 1 := by
  have hq : 1 / 2 ≤ num / den := by rw [le_div_iff₀ hd]; exact h
  unfold gainPositive gainFactor
  rw [if_neg hd.ne', if_neg hd.ne']
  refine ⟨decide_eq_true (by linarith), (by norm_num : (0 : ℝ) ≤ 1 / 3).trans (le_max_left _ _), max_le (by norm_num) ?_⟩
  have : 0 ≤ (2 * (num / den) - 1) ^ 3 := pow_nonneg (by linarith) 3
  linarith

theorem lm_near_pass {o : VarOps S} {P : Prob K S} {v : List (K × S)} {m n : ℕ} {H0 : Mat m n} {R C l σ β h μm r : ℝ}
    (hnt : NearTruth o P v 0 H0 R C) (hl : 0 < l) (hlow : ∀ v : Vec n, l * vecNorm v ^ 2 ≤ v ⬝ᵥ (H0ᵀ * H0) *ᵥ v) (hσd : σ = Real.sqrt l / 2)
    (hC : 0 ≤ C) (hn : 0 < n) (hrR : r ≤ R) (hh : ∀ u, vecNorm (H0 *ᵥ u) ≤ h * vecNorm u) (hh0 : 0 ≤ h) (hμm : 0 ≤ μm)
    (hβ : β = (μm + σ ^ 2 / 2) / (μm + σ ^ 2)) (hCr : C * r ≤ σ / 2) (hsmall : 16 * (C * (h + 2 * σ)) * r ≤ σ ^ 2 * (1 - β) ^ 2)
    (hf : P.cfg.ftol = none) (hg : P.cfg.gradTol = none) {s : LoopState K S} {δ : Vec n} (hs : LmNear o P v μm δ s) (hr : vecNorm δ ≤ r) :
    ∃ (s' : LoopState K S) (b : Bool) (δ' : Vec n), lmStep o P s = .ok (s', b) ∧ LmNear o P v μm δ' s' ∧ vecNorm δ' ≤ vecNorm δ ∧
      (b = false → vecNorm δ' ≤ β * vecNorm δ) ∧
      (b = true → δ = 0 ∧ δ' = 0 ∨ ∃ t ∈ P.cfg.stepTol, vecNorm δ' ≤ t / (1 - β)) := by
  have hσ : 0 < σ := by rw [hσd]; have := Real.sqrt_pos.2 hl; positivity
  have hden : 0 < μm + σ ^ 2 := by positivity
  have hβ0 : 0 ≤ β := by rw [hβ]; positivity
  have hβ1 : β < 1 := by rw [hβ, div_lt_one hden]; have : 0 < σ ^ 2 := by positivity
                         linarith
  have h1β : 0 < 1 - β := by linarith
  have hD := vecNorm_nonneg δ
  obtain ⟨w, e, H, g1, g2, g3, g4⟩ := hnt.lin δ (hr.trans hrR)
  rw [sub_zero] at g3
  have hCδ : C * vecNorm δ ≤ σ / 2 := (mul_le_mul_of_nonneg_left hr hC).trans hCr
  have hlo := vecNorm_mul_of_le hl hlow g4 (by rw [← hσd]; linarith)
  rw [← hσd] at hlo
  obtain ⟨b1, b2, b3, b4, b5, b6⟩ := hs
  obtain ⟨sv, sl, sc, sd, sg, sx, si, smu, snu⟩ := s
  simp only at b1 b2 b3 b4 b5 b6
  rw [g1] at b1
  obtain rfl := Except.ok.inj b1
  rw [g2] at b2
  obtain rfl := Except.ok.inj b2
  -- the damped system
  have hlowμ : ∀ v : Vec n, σ ^ 2 * vecNorm v ^ 2 ≤ v ⬝ᵥ ((Hᵀ * H) + smu • (1 : Mat n n)) *ᵥ v := by
    intro v
    rw [add_mulVec, smul_mulVec, one_mulVec, dotProduct_add, dotProduct_smul, smul_eq_mul, gram_dot_eq]
    have := mul_nonneg b4 (dot_self_nonneg v)
    have h2 := pow_le_pow_left₀ (mul_nonneg hσ.le (vecNorm_nonneg _)) (hlo v) 2
    rw [mul_pow] at h2
    linarith
  have hdμ := det_of_lower (by positivity : 0 < σ ^ 2) hlowμ
  obtain ⟨d, hdd⟩ : ∃ d, d = ((Hᵀ * H) + smu • (1 : Mat n n))⁻¹ *ᵥ (-(Hᵀ *ᵥ e)) := ⟨_, rfl⟩
  have hds : ((Hᵀ * H) + smu • (1 : Mat n n)) *ᵥ d = -(Hᵀ *ᵥ e) := by
    rw [hdd, mulVec_mulVec, mul_nonsing_inv _ (isUnit_iff_ne_zero.2 hdμ), one_mulVec]
  have hsp : spsolve ((Lin.mk m n e H (1 / 2 * (e ⬝ᵥ e))).A + smu • (1 : Mat _ _)) (Lin.mk m n e H (1 / 2 * (e ⬝ᵥ e))).b = .ok d := by
    rw [hdd]; exact if_neg hdμ
  have hshr := damped_shrink hσ hlo g3 hCδ b4 hds
  have hY : vecNorm (δ + d) ≤ β * vecNorm δ := by
    rcases b6 with b6 | b6
    · rw [b6, vecNorm_zero, mul_zero] at hshr
      rw [b6, vecNorm_zero, mul_zero]
      have : 0 < smu + σ ^ 2 := by positivity
      nlinarith [vecNorm_nonneg (0 + d)]
    · have h1 : vecNorm (δ + d) ≤ (smu + σ ^ 2 / 2) / (smu + σ ^ 2) * vecNorm δ := by
        rw [div_mul_eq_mul_div, le_div_iff₀ (by positivity), mul_comm]
        exact hshr
      refine h1.trans (mul_le_mul_of_nonneg_right ?_ hD)
      rw [hβ, div_le_div_iff₀ (by positivity) hden]
      nlinarith [sq_nonneg σ]
  have hYD : vecNorm (δ + d) ≤ vecNorm δ := by nlinarith
  have hdn : (1 - β) * vecNorm δ ≤ vecNorm d := by
    have h1 := vecNorm_add (δ + d) (-d)
    rw [add_neg_cancel_right, vecNorm_neg] at h1
    linarith
  have hzero : vecNorm d = 0 → δ = 0 := by
    intro h0
    rw [h0] at hdn
    exact vecNorm_zero_iff_zero (le_antisymm (by nlinarith) hD)
  -- the trial point
  obtain ⟨w', e', H', k1, k2, k3, k4⟩ := hnt.lin (δ + d) ((hYD.trans hr).trans hrR)
  rw [sub_zero] at k3
  have hw' : correctStates o P.constKeys P.varSlices (List.ofFn d) w = .ok w' := by rw [hnt.add δ d w g1]; exact k1
  obtain ⟨gn, hgn⟩ : ∃ gn, (Lin.mk m n e' H' (1 / 2 * (e' ⬝ᵥ e'))).gradNorm = .ok gn := by
    unfold Lin.gradNorm npMax
    exact ⟨_, dif_pos hn⟩
  by_cases hconv : isConverged P.cfg sd (sc.headD 0) (vecNorm d) sg = true
  · refine ⟨⟨w, ⟨m, n, e, H, 1 / 2 * (e ⬝ᵥ e)⟩, sc, sd, sg, vecNorm d, si, smu, snu⟩, true, δ, ?_, ⟨g1, g2, b3, b4, b5, b6⟩, le_rfl, (fun h => by cases h), fun _ => ?_⟩
    · unfold lmStep
      simp only [hsp]
      show (if isConverged P.cfg sd (sc.headD 0) (vecNorm d) sg = true then _ else _) = _
      rw [if_pos hconv]
    · unfold isConverged at hconv
      cases sd with
      | none => simp at hconv
      | some dc =>
        simp only [decide_eq_true_eq, hf, hg] at hconv
        rcases hconv with ⟨t, ht, hlt'⟩ | ⟨t, ht, -⟩ | hc | hx | ⟨t, ht, -⟩
        · right
          refine ⟨t, ht, ?_⟩
          rw [le_div_iff₀ h1β]
          linarith
        · simp at ht
        · left
          rw [b3] at hc
          have hee : e ⬝ᵥ e = 0 := by
            simp only at hc
            linarith
          have he0 := dotProduct_self_eq_zero.1 hee
          rw [he0, zero_sub, vecNorm_neg] at g3
          have h1 := hlo δ
          have h2 : C * vecNorm δ ^ 2 ≤ σ / 2 * vecNorm δ := by
            rw [sq, ← mul_assoc]
            exact mul_le_mul_of_nonneg_right hCδ hD
          have h0 : δ = 0 := vecNorm_zero_iff_zero (le_antisymm (by nlinarith) hD)
          exact ⟨h0, h0⟩
        · left
          exact ⟨hzero hx, hzero hx⟩
        · simp at ht
  · have hstep : lmStep o P ⟨w, ⟨m, n, e, H, 1 / 2 * (e ⬝ᵥ e)⟩, sc, sd, sg, sx, si, smu, snu⟩ =
        .ok (lmUpdate ⟨w, ⟨m, n, e, H, 1 / 2 * (e ⬝ᵥ e)⟩, sc, sd, sg, sx, si, smu, snu⟩ (vecNorm d) w' ⟨m, n, e', H', 1 / 2 * (e' ⬝ᵥ e')⟩
          (gainDen d (Hᵀ *ᵥ e) smu) gn, false) := by
      unfold lmStep
      simp only [hsp]
      show (if isConverged P.cfg sd (sc.headD 0) (vecNorm d) sg = true then _ else _) = _
      rw [if_neg hconv]
      exact bind3_ok (f := fun v => P.linearize v) (g := fun L => L.gradNorm) hw' k2 hgn
    by_cases hz : d = 0
    · -- at the truth
      have h0 : δ = 0 := hzero (by rw [hz, vecNorm_zero])
      have hden0 : gainDen d (Hᵀ *ᵥ e) smu = 0 := by rw [hz]; unfold gainDen; rw [zero_dotProduct, mul_zero]
      have hnew : δ + d = 0 := by rw [h0, hz, add_zero]
      refine ⟨_, false, 0, hstep, ?_, by rw [vecNorm_zero]; exact hD, fun _ => by rw [vecNorm_zero]; positivity, fun h => by cases h⟩
      unfold lmUpdate
      simp only
      split
      · refine ⟨by rw [← hnew]; exact k1, k2, rfl, ?_, zero_le_two, Or.inl rfl⟩
        show 0 ≤ smu * gainFactor _ _
        refine mul_nonneg b4 ?_
        unfold gainFactor
        rw [if_pos hden0]
        norm_num
      · exact ⟨by rw [← h0]; exact g1, g2, b3, mul_nonneg b4 b5, mul_nonneg zero_le_two b5, Or.inl rfl⟩
    · have hdpos : 0 < gainDen d (Hᵀ *ᵥ e) smu := by
        rw [(damped_gain hds).1]
        have h1 : 0 < vecNorm d := lt_of_le_of_ne (vecNorm_nonneg d) fun h => hz (vecNorm_zero_iff_zero h.symm)
        have h2 : 0 < vecNorm (H *ᵥ d) := lt_of_lt_of_le (mul_pos hσ h1) (hlo d)
        have h3 : 0 ≤ smu * vecNorm d ^ 2 := by positivity
        have h4 : 0 < vecNorm (H *ᵥ d) ^ 2 := by positivity
        linarith
      have hacc := damped_accept hσ hC b4 hβ1 hlo hh hh0 g3 hCδ g4 k3 k4 hds hYD hdn
        ((mul_le_mul_of_nonneg_left hr (by positivity)).trans hsmall)
      have hnum : sc.headD 0 - 1 / 2 * (e' ⬝ᵥ e') = 1 / 2 * vecNorm e ^ 2 - 1 / 2 * vecNorm e' ^ 2 := by
        rw [b3, vecNorm_sq, vecNorm_sq]
      rw [← hnum] at hacc
      obtain ⟨q1, q2, q3⟩ := gain_half hdpos hacc
      refine ⟨_, false, δ + d, hstep, ?_, hYD, fun _ => hY, fun h => by cases h⟩
      unfold lmUpdate
      simp only [q1, if_true]
      refine ⟨k1, k2, rfl, mul_nonneg b4 q2, zero_le_two, ?_⟩
      rcases b6 with b6 | b6
      · left
        rw [b6, vecNorm_zero, mul_zero] at hY
        rw [b6]
        exact vecNorm_zero_iff_zero (le_antisymm hY (vecNorm_nonneg _))
      · right
        show smu * gainFactor _ _ ≤ μm
        exact (mul_le_of_le_one_right b4 q3).trans b6

theorem lm_near_loop {o : VarOps S} {P : Prob K S} {v : List (K × S)} {m n : ℕ} {H0 : Mat m n} {R C l σ β h μm r : ℝ}
    (hnt : NearTruth o P v 0 H0 R C) (hl : 0 < l) (hlow : ∀ v : Vec n, l * vecNorm v ^ 2 ≤ v ⬝ᵥ (H0ᵀ * H0) *ᵥ v) (hσd : σ = Real.sqrt l / 2)
    (hC : 0 ≤ C) (hn : 0 < n) (hrR : r ≤ R) (hh : ∀ u, vecNorm (H0 *ᵥ u) ≤ h * vecNorm u) (hh0 : 0 ≤ h) (hμm : 0 ≤ μm)
    (hβ : β = (μm + σ ^ 2 / 2) / (μm + σ ^ 2)) (hβ0 : 0 ≤ β) (hCr : C * r ≤ σ / 2) (hsmall : 16 * (C * (h + 2 * σ)) * r ≤ σ ^ 2 * (1 - β) ^ 2)
    (hf : P.cfg.ftol = none) (hg : P.cfg.gradTol = none) :
    ∀ (N : ℕ) (s : LoopState K S) (δ : Vec n), LmNear o P v μm δ s → vecNorm δ ≤ r →
      ∃ (s' : LoopState K S) (δ' : Vec n), iterLoop (lmStep o P) N s = .ok s' ∧ LmNear o P v μm δ' s' ∧
        (vecNorm δ' ≤ β ^ N * vecNorm δ ∨ ∃ t ∈ P.cfg.stepTol, vecNorm δ' ≤ t / (1 - β))
  | 0, s, δ, h1, h2 => ⟨s, δ, rfl, h1, Or.inl (by simp)⟩
  | N + 1, s, δ, h1, h2 => by
    obtain ⟨q, b, δ1, p1, p2, p3, p4, p5⟩ := lm_near_pass hnt hl hlow hσd hC hn hrR hh hh0 hμm hβ hCr hsmall hf hg h1 h2
    unfold iterLoop
    rw [p1]
    cases b with
    | true =>
      refine ⟨q, δ1, rfl, p2, ?_⟩
      rcases p5 rfl with ⟨h3, h4⟩ | h3
      · left
        rw [h3, h4, vecNorm_zero, mul_zero]
      · exact Or.inr h3
    | false =>
      obtain ⟨s', δ', i1, i2, i3⟩ := lm_near_loop hnt hl hlow hσd hC hn hrR hh hh0 hμm hβ hβ0 hCr hsmall hf hg N q δ1 p2 (p3.trans h2)
      refine ⟨s', δ', i1, i2, i3.imp (fun hi => hi.trans ?_) id⟩
      rw [pow_succ, mul_assoc]
      exact mul_le_mul_of_nonneg_left (p4 rfl) (pow_nonneg hβ0 _)


/-! ### The property -/

/-- **C145.** Let the residuals of a problem with vector variables and L2 losses be smooth near an assignment `v` and vanish there (perfect
data), and let Gauss-Newton succeed when started at `v`. Then for every initial damping factor `tau ≥ 0` there are a radius `r > 0` and a factor
`β < 1` such that from every initial assignment with all components within `ρ ≤ r` of `v`, for every number of iterations `M`,
Levenberg-Marquardt succeeds, and either all components of its result are within `k β^M ρ` of `v`, or it stopped early because of the step
tolerance `t`, within `t / (1 - β)` of `v`. -/
theorem C145_lm_local (P Pt : Prob K (List ℝ)) (v : List (K × List ℝ)) (N : Residual K (List ℝ) → ℕ)
    (E : Residual K (List ℝ) → List (List ℝ) → List ℝ) (D : Residual K (List ℝ) → List (List ℝ) → List DMat) (R B : ℝ)
    (hsm : SmoothNear P v N E D R B)
    (hE : ∀ r ∈ P.residuals, ∀ a, a < N r → (E r (r.keys.map (valOf v))).getD a 0 = 0) (hR : 0 < R) (hB : 0 ≤ B)
    (ht : (gnOf P v 1 none).solve vecVarOps = .ok Pt) (tau : ℝ) (htau : 0 ≤ tau) :
    ∃ r k β : ℝ, 0 < r ∧ 0 < k ∧ 0 ≤ β ∧ β < 1 ∧ ∀ (v0 : List (K × List ℝ)) (ρ : ℝ), Near P.constKeys v v0 ρ → ρ ≤ r →
      ∀ (M : ℕ) (st : Option ℝ), ∃ P', (lmOf (gnOf P v0 M st) tau M st).solve vecVarOps = .ok P' ∧
        (Near P.constKeys v P'.vars (k * β ^ M * ρ) ∨ ∃ t ∈ st, Near P.constKeys v P'.vars (t / (1 - β))) := by
  obtain ⟨rows, hrows⟩ : ∃ rows, rows = rowSpans (P.residuals.map N) 0 := ⟨_, rfl⟩
  obtain ⟨cols, hcols⟩ : ∃ cols, cols = colSlices vecVarOps P.constKeys v 0 P.varSlices := ⟨_, rfl⟩
  have hlv := probAt_linear hsm hR.le (Near.refl P.constKeys v)
  have hsv := started_probAt hsm hR.le (Near.refl P.constKeys v)
  rw [← hrows, ← hcols] at hsv
  have hfit : SlicesFit P.constKeys cols.1 cols.2 v := linear_fit hlv hsv
  obtain ⟨P1, hP1, h'⟩ := solve_GN rfl ht
  have hn := gn_dof_pos (P := gnOf P v 1 none) rfl one_pos ht hP1
  have hQ1 : SmoothNear (gnOf P v 1 none) v N E D R B := ⟨hsm.keys, hsm.losses, hsm.res⟩
  have hst1 := started_near hQ1 hR.le (Near.refl P.constKeys v)
  rw [show (gnOf P v 1 none).residuals = P.residuals from rfl, ← hrows, show colSlices vecVarOps (gnOf P v 1 none).constKeys v 0
    (gnOf P v 1 none).varSlices = cols from hcols.symm] at hst1
  have hPP : P1 = setUp (gnOf P v 1 none) rows cols v := by
    have : Prob.started vecVarOps (gnOf P v 1 none) = _ := hst1
    rw [hP1] at this
    exact Except.ok.inj this
  subst hPP
  replace hn : 0 < cols.2 := hn
  obtain ⟨e0, H0, hz, he0, -⟩ := smooth_nearTruth hsm hR.le hB hrows hcols
  obtain rfl := he0 hE
  have hz1 : (setUp (gnOf P v 1 none) rows cols v).linearize v = .ok ⟨rows.2, cols.2, 0, H0, 1 / 2 * ((0 : Vec rows.2) ⬝ᵥ 0)⟩ :=
    (linearize_cfg (P := setUp P rows cols v) ⟨"GN", 1, none, none, none, 0⟩ v).trans hz
  -- the information matrix at the truth
  have hd : (H0ᵀ * H0).det ≠ 0 := by
    unfold solveGN at h'
    obtain ⟨L, h2, h'⟩ := bind_ok h'
    replace h2 : (setUp (gnOf P v 1 none) rows cols v).linearize v = .ok L := h2
    rw [hz1] at h2
    obtain rfl := Except.ok.inj h2
    obtain ⟨s, h3, h'⟩ := bind_ok h'
    replace h3 : iterLoop (gnStep vecVarOps (setUp (gnOf P v 1 none) rows cols v)) (0 + 1) _ = .ok s := h3
    unfold iterLoop at h3
    obtain ⟨q, hq, h3⟩ := bind_ok h3
    unfold gnStep at hq
    rw [if_neg (by simp [isConverged])] at hq
    obtain ⟨δ, g1, hq⟩ := bind_ok hq
    exact (spsolve_ok g1).1
  obtain ⟨l, hl, hlow⟩ := gram_lower hd
  -- the constants
  obtain ⟨C, hCd⟩ : ∃ C : ℝ, C = rows.2 * (B * (cols.2 + 1)) := ⟨_, rfl⟩
  have hC : 0 ≤ C := by rw [hCd]; positivity
  obtain ⟨σ, hσd⟩ : ∃ σ, σ = Real.sqrt l / 2 := ⟨_, rfl⟩
  have hσ : 0 < σ := by rw [hσd]; have := Real.sqrt_pos.2 hl; positivity
  obtain ⟨h, hhd⟩ : ∃ h, h = frob H0 := ⟨_, rfl⟩
  have hh : ∀ u, vecNorm (H0 *ᵥ u) ≤ h * vecNorm u := fun u => by rw [hhd]; exact norm_mulVec_le H0 u
  have hh0 : 0 ≤ h := by rw [hhd]; exact frob_nonneg _
  obtain ⟨μm, hμd⟩ : ∃ μm, μm = tau * (h + σ) ^ 2 := ⟨_, rfl⟩
  have hμm : 0 ≤ μm := by rw [hμd]; positivity
  obtain ⟨β, hβd⟩ : ∃ β, β = (μm + σ ^ 2 / 2) / (μm + σ ^ 2) := ⟨_, rfl⟩
  have hβ0 : 0 ≤ β := by rw [hβd]; positivity
  have hβ1 : β < 1 := by
    have : 0 < σ ^ 2 := by positivity
    rw [hβd, div_lt_one (by positivity)]
    linarith
  have h1β : 0 < 1 - β := by linarith
  obtain ⟨r1, hr1d⟩ : ∃ r1 : ℝ, r1 = σ / (2 * (C + 1)) := ⟨_, rfl⟩
  obtain ⟨r2, hr2d⟩ : ∃ r2 : ℝ, r2 = σ ^ 2 * (1 - β) ^ 2 / (16 * (C * (h + 2 * σ)) + 1) := ⟨_, rfl⟩
  have hr1 : 0 < r1 := by rw [hr1d]; positivity
  have hr2 : 0 < r2 := by rw [hr2d]; positivity
  obtain ⟨r0, hr0d⟩ : ∃ r0 : ℝ, r0 = min R (min r1 r2) := ⟨_, rfl⟩
  have hr0 : 0 < r0 := by rw [hr0d]; exact lt_min hR (lt_min hr1 hr2)
  have hr0R : r0 ≤ R := by rw [hr0d]; exact min_le_left _ _
  have hCr : C * r0 ≤ σ / 2 := by
    have : r0 ≤ r1 := by rw [hr0d]; exact (min_le_right _ _).trans (min_le_left _ _)
    rw [hr1d, le_div_iff₀ (by positivity)] at this
    linarith
  have hsmall0 : 16 * (C * (h + 2 * σ)) * r0 ≤ σ ^ 2 * (1 - β) ^ 2 := by
    have : r0 ≤ r2 := by rw [hr0d]; exact (min_le_right _ _).trans (min_le_right _ _)
    rw [hr2d, le_div_iff₀ (by positivity)] at this
    linarith
  have hn1 : (1 : ℝ) ≤ cols.2 := by exact_mod_cast hn
  have hn0 : (0 : ℝ) < cols.2 := by linarith
  refine ⟨r0 / cols.2, cols.2, β, by positivity, hn0, hβ0, hβ1, ?_⟩
  intro v0 ρ hv0 hρ M st
  have hsmall : cols.2 * ρ ≤ r0 := by
    rw [le_div_iff₀ hn0] at hρ
    linarith
  -- the problem to be solved
  obtain ⟨Q, hQd⟩ : ∃ Q, Q = lmOf (gnOf P v0 M st) tau M st := ⟨_, rfl⟩
  have hQ : SmoothNear Q v N E D R B := by rw [hQd]; exact ⟨hsm.keys, hsm.losses, hsm.res⟩
  obtain ⟨δ, hδ, hδρ⟩ : ∃ δ : Vec cols.2, moveAll P.constKeys cols.1 δ v = v0 ∧ ∀ c, |δ c| ≤ ρ := near_displacement hlv hsv hv0
  have hρ0 : 0 ≤ ρ := (abs_nonneg _).trans (hδρ ⟨0, hn⟩)
  have hδn : vecNorm δ ≤ cols.2 * ρ := vecNorm_le_of hρ0 hδρ
  have hρR : ρ ≤ R := by nlinarith
  have hrows' : rows = rowSpans (Q.residuals.map N) 0 := by rw [hQd]; exact hrows
  have hcols' : cols = colSlices vecVarOps Q.constKeys v 0 Q.varSlices := by rw [hQd]; exact hcols
  have hst := started_near hQ hρR (w := v0) (by rw [hQd]; exact hv0)
  rw [← hrows', ← hcols'] at hst
  have hst' : Q.started vecVarOps = .ok (setUp Q rows cols v0) := by
    rw [← hst, hQd]
    rfl
  obtain ⟨e1, H1, hy1, he1, hnt⟩ := smooth_nearTruth hQ hR.le hB hrows' hcols'
  obtain rfl := he1 (by rw [hQd]; exact hE)
  have hHH : H1 = H0 := by
    have e : (setUp Q rows cols v).linearize v = (setUp P rows cols v).linearize v := by
      rw [hQd]
      exact linearize_cfg (P := setUp P rows cols v) ⟨"LM", M, st, none, none, tau⟩ v
    rw [e, hz] at hy1
    have := Except.ok.inj hy1
    injection this with _ _ _ e4 _
    exact e4.symm
  rw [hHH, ← hCd] at hnt
  have hnt0 := hnt v0
  obtain ⟨w, e, H, k1, k2, k3, k4⟩ := hnt0.lin δ (hδn.trans (hsmall.trans hr0R))
  have hconst : Q.constKeys = P.constKeys := by rw [hQd]; rfl
  have hcor : ∀ d : Vec cols.2, correctStates vecVarOps (setUp Q rows cols v0).constKeys (setUp Q rows cols v0).varSlices (List.ofFn d) v =
      .ok (moveAll P.constKeys cols.1 d v) := by
    intro d
    show correctStates vecVarOps Q.constKeys cols.1 (List.ofFn d) v = _
    rw [hconst]
    exact correct_vec d hfit
  have hw : w = v0 := by
    rw [hcor δ, hδ] at k1
    exact (Except.ok.inj k1).symm
  rw [hw] at k1 k2
  -- the initial damping
  obtain ⟨mx, hmx⟩ : ∃ mx, npMax (fun j => (Lin.mk rows.2 cols.2 e H (1 / 2 * (e ⬝ᵥ e))).A j j) = .ok mx := by
    unfold npMax
    exact ⟨_, dif_pos hn⟩
  have hmxb : 0 ≤ mx ∧ mx ≤ (h + σ) ^ 2 := by
    obtain ⟨-, j, hj⟩ := npMax_ok hmx
    have h1 : (Lin.mk rows.2 cols.2 e H (1 / 2 * (e ⬝ᵥ e))).A j j = vecNorm (H *ᵥ Pi.single j 1) ^ 2 := by
      show (Hᵀ * H) j j = _
      rw [← gram_dot_eq]
      simp
    rw [h1] at hj
    have h2 : vecNorm (Pi.single j 1 : Vec cols.2) = 1 := by
      unfold vecNorm
      simp
    have h3 : vecNorm (H *ᵥ Pi.single j 1) ≤ h + σ := by
      have a1 := vecNorm_add (H *ᵥ Pi.single j 1 - H0 *ᵥ Pi.single j 1) (H0 *ᵥ Pi.single j 1)
      rw [sub_add_cancel] at a1
      have a2 := k4 (Pi.single j 1)
      have a3 := hh (Pi.single j 1)
      rw [h2, mul_one] at a2 a3
      have a4 : C * vecNorm δ ≤ σ / 2 := (mul_le_mul_of_nonneg_left (hδn.trans hsmall) hC).trans hCr
      linarith
    rw [← hj]
    exact ⟨sq_nonneg _, pow_le_pow_left₀ (vecNorm_nonneg _) h3 2⟩
  obtain ⟨s', δ', i1, i2, i5⟩ := lm_near_loop (r := r0) hnt0 hl hlow hσd hC hn hr0R hh hh0 hμm hβd hβ0 hCr hsmall0
    (by rw [hQd]; rfl) (by rw [hQd]; rfl) M
    ⟨v0, ⟨rows.2, cols.2, e, H, 1 / 2 * (e ⬝ᵥ e)⟩, [1 / 2 * (e ⬝ᵥ e)], none, none, 10,
      some ⟨_, (Lin.mk rows.2 cols.2 e H (1 / 2 * (e ⬝ᵥ e))).A⟩, tau * mx, 2⟩ δ
    ⟨k1, k2, rfl, mul_nonneg htau hmxb.1, zero_le_two, Or.inr (by rw [hμd]; exact mul_le_mul_of_nonneg_left hmxb.2 htau)⟩ (hδn.trans hsmall)
  have hvars : s'.vars = moveAll P.constKeys cols.1 δ' v := by
    have e2 := i2.vars
    rw [hcor δ'] at e2
    exact (Except.ok.inj e2).symm
  refine ⟨{ setUp Q rows cols v0 with vars := s'.vars, costHistory := (s'.lin.cost :: s'.costs).reverse, info := s'.info }, ?_, ?_⟩
  · rw [← hQd]
    unfold Prob.solve
    refine Eq.trans (congrArg (fun z => z >>= _) hst') ?_
    rw [ok_bindE]
    rw [if_neg (show ¬ Q.cfg.solver = "GN" by rw [hQd]; exact (by decide : ¬ "LM" = "GN")), if_pos (show Q.cfg.solver = "LM" by rw [hQd]; rfl)]
    have hcfg : (setUp Q rows cols v0).cfg.maxIters = M ∧ (setUp Q rows cols v0).cfg.tau = tau := by rw [hQd]; exact ⟨rfl, rfl⟩
    unfold solveLM
    refine Eq.trans (congrArg (fun z => z >>= _) (k2 : (setUp Q rows cols v0).linearize (setUp Q rows cols v0).vars = _)) ?_
    rw [ok_bindE]
    refine Eq.trans (congrArg (fun z => z >>= _) hmx) ?_
    rw [ok_bindE, hcfg.1, hcfg.2]
    refine Eq.trans (congrArg (fun z => z >>= _) (i1 : iterLoop (lmStep vecVarOps (setUp Q rows cols v0)) M _ = _)) ?_
    rw [ok_bindE]
    refine Eq.trans (congrArg (fun z => z >>= _) i2.lin) ?_
    rw [ok_bindE]
    rfl
  · show Near P.constKeys v s'.vars _ ∨ ∃ t ∈ st, Near P.constKeys v s'.vars _
    rw [hvars]
    have hstol : (setUp Q rows cols v0).cfg.stepTol = st := by rw [hQd]; rfl
    rw [hstol] at i5
    rcases i5 with i5 | ⟨t, ht, i5⟩
    · left
      refine near_move hfit δ' (i5.trans ?_)
      refine (mul_le_mul_of_nonneg_left hδn (pow_nonneg hβ0 M)).trans (le_of_eq ?_)
      ring
    · right
      exact ⟨t, ht, near_move hfit δ' i5⟩

/-- **C145.** In the limit: from every initial assignment near enough to the truth, the result of `M` iterations (no tolerances) tends to
the truth. -/
theorem C145_limit (P Pt : Prob K (List ℝ)) (v : List (K × List ℝ)) (N : Residual K (List ℝ) → ℕ)
    (E : Residual K (List ℝ) → List (List ℝ) → List ℝ) (D : Residual K (List ℝ) → List (List ℝ) → List DMat) (R B : ℝ)
    (hsm : SmoothNear P v N E D R B)
    (hE : ∀ r ∈ P.residuals, ∀ a, a < N r → (E r (r.keys.map (valOf v))).getD a 0 = 0) (hR : 0 < R) (hB : 0 ≤ B)
    (ht : (gnOf P v 1 none).solve vecVarOps = .ok Pt) (tau : ℝ) (htau : 0 ≤ tau) :
    ∃ r : ℝ, 0 < r ∧ ∀ v0, Near P.constKeys v v0 r → ∀ ε : ℝ, 0 < ε → ∃ M1 : ℕ, ∀ M, M1 ≤ M →
      ∃ P', (lmOf (gnOf P v0 M none) tau M none).solve vecVarOps = .ok P' ∧ Near P.constKeys v P'.vars ε := by
  obtain ⟨r, k, β, hr, hk, hβ0, hβ1, hall⟩ := C145_lm_local P Pt v N E D R B hsm hE hR hB ht tau htau
  refine ⟨r, hr, fun v0 hv0 ε hε => ?_⟩
  obtain ⟨M1, hM1⟩ := exists_pow_lt_of_lt_one (show 0 < ε / (k * r) by positivity) hβ1
  refine ⟨M1, fun M hM => ?_⟩
  obtain ⟨P', k1, k2⟩ := hall v0 r hv0 le_rfl M none
  refine ⟨P', k1, ?_⟩
  rcases k2 with k2 | ⟨t, ht, -⟩
  · refine ⟨k2.shape, k2.const, fun q i => (k2.close q i).trans ?_⟩
    have h1 : β ^ M ≤ β ^ M1 := pow_le_pow_of_le_one hβ0 hβ1.le hM
    have h2 := (h1.trans hM1.le)
    rw [le_div_iff₀ (by positivity)] at h2
    linarith
  · cases ht

/-- Levenberg-Marquardt for `x² - 2` converges to `√2` from every initial value near it. -/
example : ∃ r : ℝ, 0 < r ∧ ∀ v0, Near [] [(0, [Real.sqrt 2])] v0 r → ∀ ε : ℝ, 0 < ε → ∃ M1 : ℕ, ∀ M, M1 ≤ M →
    ∃ P', (lmOf (gnOf exSq v0 M none) 1 M none).solve vecVarOps = .ok P' ∧ Near [] [((0 : ℕ), [Real.sqrt 2])] P'.vars ε := by
  obtain ⟨Pt, ht⟩ := exSq_truth
  exact C145_limit exSq Pt _ _ _ _ 1 2 exSq_smooth exSq_zero one_pos zero_le_two ht 1 zero_le_one

end Verif
