import Verif.Props.Local

/-!
C144: near a stationary point with small residuals Gauss-Newton converges linearly.
-/

set_option linter.unusedVariables false
set_option linter.unusedSectionVars false
set_option linter.unusedSimpArgs false

namespace Verif

open Matrix

variable {K S : Type} [DecidableEq K]

/-- The Gauss-Newton step from the displacement `δ` to a stationary point with the error `e0`. -/
theorem stationary_step {m n : ℕ} {H H0 : Mat m n} {l C : ℝ} (hl : 0 < l) (hlow : ∀ v : Vec n, l * vecNorm v ^ 2 ≤ v ⬝ᵥ (H0ᵀ * H0) *ᵥ v)
    {δ : Vec n} {e e0 : Vec m} (hs0 : H0ᵀ *ᵥ e0 = 0) (hH : ∀ u, vecNorm (H *ᵥ u - H0 *ᵥ u) ≤ C * vecNorm δ * vecNorm u)
    (he : vecNorm (e - e0 - H *ᵥ δ) ≤ C * vecNorm δ ^ 2) (hC0 : 0 ≤ C) (hC : C * vecNorm δ ≤ Real.sqrt l / 2) :
    (Hᵀ * H).det ≠ 0 ∧
      Real.sqrt l / 2 * vecNorm (δ + (Hᵀ * H)⁻¹ *ᵥ (-(Hᵀ *ᵥ e))) ≤ C * vecNorm δ ^ 2 + C * vecNorm δ * vecNorm e0 / (Real.sqrt l / 2) ∧
      (e = 0 → Real.sqrt l / 2 * vecNorm δ ≤ C * vecNorm δ ^ 2 + C * vecNorm δ * vecNorm e0 / (Real.sqrt l / 2)) := by
  have hlo := vecNorm_mul_of_le hl hlow hH hC
  have hs : 0 < Real.sqrt l / 2 := by have := Real.sqrt_pos.2 hl; positivity
  obtain ⟨σ, hσ⟩ : ∃ σ, σ = Real.sqrt l / 2 := ⟨_, rfl⟩
  rw [← hσ] at hlo hs ⊢
  have hlow2 : ∀ v : Vec n, σ ^ 2 * vecNorm v ^ 2 ≤ v ⬝ᵥ (Hᵀ * H) *ᵥ v := by
    intro v
    rw [gram_dot_eq, ← mul_pow]
    exact pow_le_pow_left₀ (mul_nonneg hs.le (vecNorm_nonneg _)) (hlo v) 2
  have hd : (Hᵀ * H).det ≠ 0 := det_of_lower (by positivity) hlow2
  have hδ0 := vecNorm_nonneg δ
  have he00 := vecNorm_nonneg e0
  have main : ∀ y : Vec n, (H *ᵥ y) ⬝ᵥ (H *ᵥ y) = -((H *ᵥ y) ⬝ᵥ (e - e0 - H *ᵥ δ)) - (H *ᵥ y) ⬝ᵥ e0 →
      σ * vecNorm y ≤ C * vecNorm δ ^ 2 + C * vecNorm δ * vecNorm e0 / σ := by
    intro y hy
    have hy0 := vecNorm_nonneg y
    have hz : (H0 *ᵥ y) ⬝ᵥ e0 = 0 := by
      have : y ⬝ᵥ (H0ᵀ *ᵥ e0) = 0 := by rw [hs0, dotProduct_zero]
      rwa [dotProduct_mulVec, vecMul_transpose] at this
    have h1 : (H *ᵥ y) ⬝ᵥ e0 = (H *ᵥ y - H0 *ᵥ y) ⬝ᵥ e0 := by rw [sub_dotProduct, hz, sub_zero]
    have h2 := (abs_le.1 (dot_le_norm (H *ᵥ y) (e - e0 - H *ᵥ δ))).1
    have h3 := (abs_le.1 (dot_le_norm (H *ᵥ y - H0 *ᵥ y) e0)).1
    obtain ⟨a, ha⟩ : ∃ a, a = vecNorm (H *ᵥ y) := ⟨_, rfl⟩
    have ha0 : 0 ≤ a := by rw [ha]; exact vecNorm_nonneg _
    have hya : vecNorm y ≤ a / σ := by rw [le_div_iff₀ hs, ha, mul_comm]; exact hlo y
    have h4 : a ^ 2 ≤ a * (C * vecNorm δ ^ 2 + C * vecNorm δ * vecNorm e0 / σ) := by
      have h5 : a ^ 2 = -((H *ᵥ y) ⬝ᵥ (e - e0 - H *ᵥ δ)) - (H *ᵥ y - H0 *ᵥ y) ⬝ᵥ e0 := by rw [← h1, ← hy, ha, vecNorm_sq]
      have h6 : vecNorm (H *ᵥ y - H0 *ᵥ y) * vecNorm e0 ≤ a * (C * vecNorm δ * vecNorm e0 / σ) := by
        have k1 := mul_le_mul_of_nonneg_right (hH y) he00
        have k2 : C * vecNorm δ * vecNorm y * vecNorm e0 ≤ C * vecNorm δ * (a / σ) * vecNorm e0 :=
          mul_le_mul_of_nonneg_right (mul_le_mul_of_nonneg_left hya (by positivity)) he00
        refine (k1.trans k2).trans (le_of_eq ?_)
        ring
      have h7 : a * vecNorm (e - e0 - H *ᵥ δ) ≤ a * (C * vecNorm δ ^ 2) := mul_le_mul_of_nonneg_left he ha0
      rw [← ha] at h2
      rw [h5, mul_add]
      linarith
    have h8 : a ≤ C * vecNorm δ ^ 2 + C * vecNorm δ * vecNorm e0 / σ := by
      rcases ha0.eq_or_lt with h0 | h0
      · rw [← h0]; positivity
      · rw [sq] at h4
        exact le_of_mul_le_mul_left h4 h0
    exact (hlo y).trans (by rw [← ha]; exact h8)
  refine ⟨hd, ?_, ?_⟩
  · obtain ⟨d, hdd⟩ : ∃ d, d = (Hᵀ * H)⁻¹ *ᵥ (-(Hᵀ *ᵥ e)) := ⟨_, rfl⟩
    rw [← hdd]
    refine main _ ?_
    have h1 : (Hᵀ * H) *ᵥ d = -(Hᵀ *ᵥ e) := by rw [hdd, mulVec_mulVec, mul_nonsing_inv _ (isUnit_iff_ne_zero.2 hd), one_mulVec]
    have h2 : Hᵀ *ᵥ (H *ᵥ (δ + d)) = Hᵀ *ᵥ (H *ᵥ δ - e) := by
      rw [mulVec_add H, mulVec_add Hᵀ, mulVec_mulVec d Hᵀ H, h1, mulVec_sub, sub_eq_add_neg]
    have h3 : (H *ᵥ (δ + d)) ⬝ᵥ (H *ᵥ (δ + d)) = (H *ᵥ (δ + d)) ⬝ᵥ (H *ᵥ δ - e) := by
      have := congrArg (fun w => (δ + d) ⬝ᵥ w) h2
      rw [dotProduct_mulVec _ Hᵀ, vecMul_transpose, dotProduct_mulVec _ Hᵀ, vecMul_transpose] at this
      exact this
    rw [h3, ← dotProduct_neg, ← dotProduct_sub]
    congr 1
    abel
  · intro h0
    refine main δ ?_
    rw [← dotProduct_neg, ← dotProduct_sub]
    congr 1
    rw [h0]
    abel

/-- A state of the loop at displacement `δ`. -/
structure RateState (o : VarOps S) (P : Prob K S) (v : List (K × S)) {n : ℕ} (γ : ℝ) (δ : Vec n) (s : LoopState K S) : Prop where
  vars : correctStates o P.constKeys P.varSlices (List.ofFn δ) v = .ok s.vars
  lin : P.linearize s.vars = .ok s.lin
  head : s.costs.headD 0 = s.lin.cost
  last : s.deltaCost = none ∨ (0 ≤ s.dx ∧ vecNorm δ ≤ γ * s.dx ∧ s.info.isSome)

theorem rate_loop {o : VarOps S} {P : Prob K S} {v : List (K × S)} {m n : ℕ} {e0 : Vec m} {H0 : Mat m n} {R C l β γ r : ℝ}
    (h : NearTruth o P v e0 H0 R C) (hs0 : H0ᵀ *ᵥ e0 = 0)
    (hl : 0 < l) (hlow : ∀ v : Vec n, l * vecNorm v ^ 2 ≤ v ⬝ᵥ (H0ᵀ * H0) *ᵥ v) (hC : 0 ≤ C) (hn : 0 < n) (hrR : r ≤ R) (hβ0 : 0 ≤ β) (hβ1 : β < 1)
    (hγ : γ = β / (1 - β)) (hβ : C * r + C * vecNorm e0 / (Real.sqrt l / 2) ≤ β * (Real.sqrt l / 2)) (hCr : C * r ≤ Real.sqrt l / 2)
    (hf : P.cfg.ftol = none) (hg : P.cfg.gradTol = none) :
    ∀ (N : ℕ) (s : LoopState K S) (δ : Vec n), RateState o P v γ δ s → vecNorm δ ≤ r →
      ∃ (s' : LoopState K S) (δ' : Vec n), iterLoop (gnStep o P) N s = .ok s' ∧ RateState o P v γ δ' s' ∧ vecNorm δ' ≤ r ∧ (0 < N → s'.info.isSome) ∧
        (vecNorm δ' ≤ β ^ N * vecNorm δ ∨ ∃ t ∈ P.cfg.stepTol, vecNorm δ' ≤ γ * t)
  | 0, s, δ, h1, h2 => ⟨s, δ, rfl, h1, h2, fun h => absurd h (lt_irrefl 0), Or.inl (by simp)⟩
  | N + 1, s, δ, h1, h2 => by
    have hs : 0 < Real.sqrt l / 2 := by have := Real.sqrt_pos.2 hl; positivity
    have hδ0 := vecNorm_nonneg δ
    have h1β : 0 < 1 - β := by linarith
    have hγ0 : 0 ≤ γ := by rw [hγ]; positivity
    obtain ⟨w, e, H, g1, g2, g3, g4⟩ := h.lin δ (h2.trans hrR)
    obtain ⟨b1, b2, b3, b4⟩ := h1
    have hCδ : C * vecNorm δ ≤ Real.sqrt l / 2 := (mul_le_mul_of_nonneg_left h2 hC).trans hCr
    obtain ⟨hd, hstep, hzero⟩ := stationary_step hl hlow hs0 g4 g3 hC hCδ
    have conv : ∀ {x : ℝ}, Real.sqrt l / 2 * x ≤ C * vecNorm δ ^ 2 + C * vecNorm δ * vecNorm e0 / (Real.sqrt l / 2) → x ≤ β * vecNorm δ := by
      intro x hx
      have h3 : C * vecNorm δ ^ 2 + C * vecNorm δ * vecNorm e0 / (Real.sqrt l / 2) ≤
          (C * r + C * vecNorm e0 / (Real.sqrt l / 2)) * vecNorm δ := by
        have : C * vecNorm δ * vecNorm δ ≤ C * r * vecNorm δ := mul_le_mul_of_nonneg_right (mul_le_mul_of_nonneg_left h2 hC) hδ0
        rw [add_mul]
        refine add_le_add (by rw [sq, ← mul_assoc]; exact this) (le_of_eq ?_)
        ring
      have h4 := h3.trans (mul_le_mul_of_nonneg_right hβ hδ0)
      have h5 : Real.sqrt l / 2 * x ≤ Real.sqrt l / 2 * (β * vecNorm δ) := by
        refine hx.trans (h4.trans (le_of_eq ?_))
        ring
      exact le_of_mul_le_mul_left h5 hs
    obtain ⟨sv, sl, sc, sd, sg, sx, si, smu, snu⟩ := s
    simp only at b1 b2 b3 b4
    rw [g1] at b1
    obtain rfl := Except.ok.inj b1
    rw [g2] at b2
    obtain rfl := Except.ok.inj b2
    by_cases hconv : isConverged P.cfg sd (sc.headD 0) sx sg = true
    · have hsd : ∃ dc, sd = some dc := by
        cases sd with
        | none => simp [isConverged] at hconv
        | some dc => exact ⟨dc, rfl⟩
      obtain ⟨dc, rfl⟩ := hsd
      obtain ⟨c1, c2, c3⟩ : 0 ≤ sx ∧ vecNorm δ ≤ γ * sx ∧ si.isSome := by
        rcases b4 with b4 | b4
        · cases b4
        · exact b4
      refine ⟨⟨w, ⟨m, n, e, H, 1 / 2 * (e ⬝ᵥ e)⟩, sc, some dc, sg, sx, si, smu, snu⟩, δ, ?_, ⟨g1, g2, b3, Or.inr ⟨c1, c2, c3⟩⟩, h2, fun _ => c3, ?_⟩
      · unfold iterLoop gnStep
        rw [if_pos hconv]
        rfl
      · have fin : vecNorm δ = 0 → vecNorm δ ≤ β ^ (N + 1) * vecNorm δ := by
          intro h0
          rw [h0, mul_zero]
        unfold isConverged at hconv
        simp only [decide_eq_true_eq, hf, hg] at hconv
        rcases hconv with ⟨t, ht, hlt⟩ | ⟨t, ht, -⟩ | hc | hx | ⟨t, ht, -⟩
        · right
          exact ⟨t, ht, c2.trans (mul_le_mul_of_nonneg_left hlt.le hγ0)⟩
        · simp at ht
        · left
          refine fin ?_
          rw [b3] at hc
          have hee : e ⬝ᵥ e = 0 := by
            simp only at hc
            linarith
          have := conv (hzero (dotProduct_self_eq_zero.1 hee))
          nlinarith
        · left
          refine fin (le_antisymm ?_ hδ0)
          rw [hx] at c2
          simpa using c2
        · simp at ht
    · obtain ⟨d, hdd⟩ : ∃ d, d = (Hᵀ * H)⁻¹ *ᵥ (-(Hᵀ *ᵥ e)) := ⟨_, rfl⟩
      rw [← hdd] at hstep
      have hnew := conv hstep
      have hr' : vecNorm (δ + d) ≤ r := by nlinarith
      obtain ⟨w', e', H', k1, k2, k3, k4⟩ := h.lin (δ + d) (hr'.trans hrR)
      have hsp : spsolve (Lin.mk m n e H (1 / 2 * (e ⬝ᵥ e))).A (Lin.mk m n e H (1 / 2 * (e ⬝ᵥ e))).b = .ok d := by
        rw [hdd]; exact if_neg hd
      have hw' : correctStates o P.constKeys P.varSlices (List.ofFn d) w = .ok w' := by rw [h.add δ d w g1]; exact k1
      obtain ⟨gn, hgn⟩ : ∃ gn, (Lin.mk m n e' H' (1 / 2 * (e' ⬝ᵥ e'))).gradNorm = .ok gn := by
        unfold Lin.gradNorm npMax
        exact ⟨_, dif_pos hn⟩
      have hst : ∃ r : LoopState K S, gnStep o P ⟨w, ⟨m, n, e, H, 1 / 2 * (e ⬝ᵥ e)⟩, sc, sd, sg, sx, si, smu, snu⟩ = .ok (r, false) ∧
          r.vars = w' ∧ r.lin = ⟨m, n, e', H', 1 / 2 * (e' ⬝ᵥ e')⟩ ∧ r.costs.headD 0 = 1 / 2 * (e' ⬝ᵥ e') ∧ r.dx = vecNorm d ∧ r.info.isSome := by
        unfold gnStep
        rw [if_neg hconv]
        simp only [hsp]
        refine ⟨_, bind3_ok (f := fun v => P.linearize v) (g := fun L => L.gradNorm) (k := fun v L g => (_, false)) hw' k2 hgn, rfl, rfl, rfl, rfl, rfl⟩
      obtain ⟨q, q1, q2, q3, q4, q5, q6⟩ := hst
      have hdn : (1 - β) * vecNorm δ ≤ vecNorm d := by
        have h1 := vecNorm_add (δ + d) (-d)
        rw [add_neg_cancel_right, vecNorm_neg] at h1
        linarith
      have hdn0 := vecNorm_nonneg d
      have hq5 : vecNorm (δ + d) ≤ γ * q.dx := by
        rw [q5, hγ, div_mul_eq_mul_div, le_div_iff₀ h1β]
        have h3 := mul_le_mul_of_nonneg_left hdn hβ0
        have h4 := mul_le_mul_of_nonneg_right hnew h1β.le
        nlinarith
      obtain ⟨s', δ', i1, i2, i3, i4, i5⟩ := rate_loop h hs0 hl hlow hC hn hrR hβ0 hβ1 hγ hβ hCr hf hg N q (δ + d)
        ⟨by rw [q2]; exact k1, by rw [q2, q3]; exact k2, by rw [q4, q3], Or.inr ⟨by rw [q5]; exact hdn0, hq5, q6⟩⟩ hr'
      refine ⟨s', δ', ?_, i2, i3, fun _ => ?_, ?_⟩
      · unfold iterLoop
        rw [q1]
        exact i1
      · cases N with
        | zero => cases i1; exact q6
        | succ N => exact i4 (Nat.succ_pos _)
      · refine i5.imp (fun hi => hi.trans ?_) id
        rw [pow_succ, mul_assoc]
        exact mul_le_mul_of_nonneg_left hnew (pow_nonneg hβ0 _)

theorem rowSpans_total : ∀ (ns : List ℕ) (i : ℕ), (rowSpans ns i).2 = i + ns.sum
  | [], i => by simp [rowSpans]
  | n :: l, i => by simp only [rowSpans, rowSpans_total l, List.sum_cons]; omega

theorem gnOf_smooth {P : Prob K (List ℝ)} {v : List (K × List ℝ)} {N : Residual K (List ℝ) → ℕ}
    {E : Residual K (List ℝ) → List (List ℝ) → List ℝ} {D : Residual K (List ℝ) → List (List ℝ) → List DMat} {R B : ℝ}
    (h : SmoothNear P v N E D R B) (v0 : List (K × List ℝ)) (M : ℕ) (st : Option ℝ) : SmoothNear (gnOf P v0 M st) v N E D R B :=
  ⟨h.keys, h.losses, h.res⟩

/-- **C144.** Let the residuals of a problem with vector variables and L2 losses be smooth near an assignment `v` where one iteration of
Gauss-Newton stays (a stationary point), with the cost `c` there and the information matrix `A ≥ l > 0`, and let the residuals at `v` be small:
`4 m B (n + 1) √(2c) < β l` for some `β < 1`, with `m` error components, `n` free components and the smoothness constant `B`. Then there is a
radius `r > 0` such that from every initial assignment with all components within `ρ ≤ r` of `v`, for every number of iterations `M ≥ 1`,
Gauss-Newton succeeds and either all components of its result are within `n β^M ρ` of `v`, or it stopped because of the step tolerance
`t`, and they are within `β/(1-β) t` of `v`. -/
theorem C144_linear_rate (P Pt : Prob K (List ℝ)) (v : List (K × List ℝ)) (N : Residual K (List ℝ) → ℕ)
    (E : Residual K (List ℝ) → List (List ℝ) → List ℝ) (D : Residual K (List ℝ) → List (List ℝ) → List DMat) (R B : ℝ)
    (h : SmoothNear P v N E D R B) (hR : 0 < R) (hB : 0 ≤ B)
    (ht : (gnOf P v 1 none).solve vecVarOps = .ok Pt) (hstat : Pt.vars = v) (n : ℕ) (A : Mat n n) (hA : Pt.info = some ⟨n, A⟩)
    (c : ℝ) (hc : totalCost v (P.residuals.zip P.losses) = .ok c) (l : ℝ) (hl : 0 < l) (hlA : ∀ z : Vec n, l * (z ⬝ᵥ z) ≤ z ⬝ᵥ A *ᵥ z)
    (β : ℝ) (hβ1 : β < 1) (hβ : 4 * (((P.residuals.map N).sum : ℕ) * (B * (n + 1))) * Real.sqrt (2 * c) < β * l) :
    ∃ r : ℝ, 0 < r ∧ ∀ (v0 : List (K × List ℝ)) (ρ : ℝ), Near P.constKeys v v0 ρ → ρ ≤ r →
      ∀ (M : ℕ) (st : Option ℝ), 0 < M → ∃ P', (gnOf P v0 M st).solve vecVarOps = .ok P' ∧
        (Near P.constKeys v P'.vars (n * β ^ M * ρ) ∨ ∃ t ∈ st, Near P.constKeys v P'.vars (β / (1 - β) * t)) := by
  -- what the solve from `v` says
  obtain ⟨rows, hrows⟩ : ∃ rows, rows = rowSpans (P.residuals.map N) 0 := ⟨_, rfl⟩
  obtain ⟨cols, hcols⟩ : ∃ cols, cols = colSlices vecVarOps P.constKeys v 0 P.varSlices := ⟨_, rfl⟩
  have hm : rows.2 = (P.residuals.map N).sum := by rw [hrows, rowSpans_total, Nat.zero_add]
  have hlv := probAt_linear h hR.le (Near.refl P.constKeys v)
  have hsv := started_probAt h hR.le (Near.refl P.constKeys v)
  rw [← hrows, ← hcols] at hsv
  have hfit : SlicesFit P.constKeys cols.1 cols.2 v := linear_fit hlv hsv
  obtain ⟨P1, hP1, h'⟩ := solve_GN rfl ht
  have hn := gn_dof_pos (P := gnOf P v 1 none) rfl one_pos ht hP1
  have hQ : ∀ v0 M st, SmoothNear (gnOf P v0 M st) v N E D R B := fun v0 M st => ⟨h.keys, h.losses, h.res⟩
  have hst1 := started_near (hQ v 1 none) hR.le (Near.refl P.constKeys v)
  rw [show (gnOf P v 1 none).residuals = P.residuals from rfl, ← hrows, show colSlices vecVarOps (gnOf P v 1 none).constKeys v 0
    (gnOf P v 1 none).varSlices = cols from hcols.symm] at hst1
  have hPP : P1 = setUp (gnOf P v 1 none) rows cols v := by
    have : Prob.started vecVarOps (gnOf P v 1 none) = _ := hst1
    rw [hP1] at this
    exact Except.ok.inj this
  subst hPP
  replace hn : 0 < cols.2 := hn
  obtain ⟨e0, H0, hz, -, -⟩ := smooth_nearTruth h hR.le hB hrows hcols
  have hz1 : (setUp (gnOf P v 1 none) rows cols v).linearize v = .ok ⟨rows.2, cols.2, e0, H0, 1 / 2 * (e0 ⬝ᵥ e0)⟩ :=
    (linearize_cfg (P := setUp P rows cols v) ⟨"GN", 1, none, none, none, 0⟩ v).trans hz
  unfold solveGN at h'
  obtain ⟨L, h2, h'⟩ := bind_ok h'
  replace h2 : (setUp (gnOf P v 1 none) rows cols v).linearize v = .ok L := h2
  rw [hz1] at h2
  obtain rfl := Except.ok.inj h2
  obtain ⟨s, h3, h'⟩ := bind_ok h'
  replace h3 : iterLoop (gnStep vecVarOps (setUp (gnOf P v 1 none) rows cols v)) (0 + 1) _ = .ok s := h3
  unfold iterLoop at h3
  obtain ⟨q, hq, h3⟩ := bind_ok h3
  have hqs : q.1 = s := by
    split at h3
    · exact Except.ok.inj h3
    · exact Except.ok.inj h3
  subst hqs
  unfold gnStep at hq
  rw [if_neg (by simp [isConverged])] at hq
  obtain ⟨d, g1, hq⟩ := bind_ok hq
  obtain ⟨w', g2, hq⟩ := bind_ok hq
  obtain ⟨L', g3, hq⟩ := bind_ok hq
  obtain ⟨gg, g4, hq⟩ := bind_ok hq
  obtain rfl := Except.ok.inj hq
  obtain ⟨Lf, h5, h'⟩ := bind_ok h'
  simp only at h'
  obtain rfl := Except.ok.inj h'
  replace hstat : w' = v := hstat
  replace hA : some (⟨cols.2, H0ᵀ * H0⟩ : SqMat) = some ⟨n, A⟩ := hA
  obtain ⟨rfl, hA⟩ := Sigma.mk.inj (Option.some.inj hA)
  obtain rfl := eq_of_heq hA
  -- stationarity
  have hd0 : d = 0 := by
    have e1 : correctStates vecVarOps P.constKeys cols.1 (List.ofFn d) v = .ok (moveAll P.constKeys cols.1 d v) := correct_vec d hfit
    have e2 : correctStates vecVarOps P.constKeys cols.1 (List.ofFn d) v = .ok w' := g2
    rw [e1] at e2
    have e3 : moveAll P.constKeys cols.1 d v = moveAll P.constKeys cols.1 (0 : Vec cols.2) v := by
      rw [moveAll_zero, Except.ok.inj e2, hstat]
    exact moveAll_inj hlv hsv e3
  have hs0 : H0ᵀ *ᵥ e0 = 0 := by
    have := (spsolve_ok g1).2
    rw [hd0, mulVec_zero] at this
    exact (neg_eq_zero.1 this.symm)
  have hd : (H0ᵀ * H0).det ≠ 0 := (spsolve_ok g1).1
  -- the constants
  have hlow : ∀ z : Vec cols.2, l * vecNorm z ^ 2 ≤ z ⬝ᵥ (H0ᵀ * H0) *ᵥ z := fun z => by rw [vecNorm_sq]; exact hlA z
  have hcc : Real.sqrt (2 * c) = vecNorm e0 := by
    have := linearize_cost hz
    have hc' : totalCost v (P.residuals.zip P.losses) = .ok (1 / 2 * (e0 ⬝ᵥ e0)) := this
    rw [hc] at hc'
    rw [Except.ok.inj hc']
    unfold vecNorm
    congr 1
    ring
  rw [hcc, ← hm] at hβ
  obtain ⟨C, hCd⟩ : ∃ C : ℝ, C = rows.2 * (B * (cols.2 + 1)) := ⟨_, rfl⟩
  rw [← hCd] at hβ
  have hC : 0 ≤ C := by rw [hCd]; positivity
  have he00 := vecNorm_nonneg e0
  have hβ0 : 0 < β := by
    have h1 : 0 ≤ 4 * C * vecNorm e0 := by positivity
    by_contra hneg
    have : β * l ≤ 0 := mul_nonpos_of_nonpos_of_nonneg (not_lt.1 hneg) hl.le
    linarith
  obtain ⟨σ, hσd⟩ : ∃ σ, σ = Real.sqrt l / 2 := ⟨_, rfl⟩
  have hσ : 0 < σ := by rw [hσd]; have := Real.sqrt_pos.2 hl; positivity
  have hσ2 : σ * σ = l / 4 := by
    have := Real.mul_self_sqrt hl.le
    rw [hσd]
    linear_combination this / 4
  have hgap : C * vecNorm e0 / σ < β * σ := by
    rw [div_lt_iff₀ hσ, mul_assoc, hσ2]
    linarith
  obtain ⟨r1, hr1d⟩ : ∃ r1 : ℝ, r1 = (β * σ - C * vecNorm e0 / σ) / (C + 1) := ⟨_, rfl⟩
  have hr1 : 0 < r1 := by rw [hr1d]; exact div_pos (by linarith) (by positivity)
  have hCr1 : C * r1 + C * vecNorm e0 / σ ≤ β * σ := by
    have : r1 * (C + 1) = β * σ - C * vecNorm e0 / σ := by rw [hr1d]; field_simp
    nlinarith
  obtain ⟨r0, hr0d⟩ : ∃ r0 : ℝ, r0 = min R r1 := ⟨_, rfl⟩
  have hr0 : 0 < r0 := by rw [hr0d]; exact lt_min hR hr1
  have hr0R : r0 ≤ R := by rw [hr0d]; exact min_le_left _ _
  have hCr0 : C * r0 ≤ C * r1 := mul_le_mul_of_nonneg_left (by rw [hr0d]; exact min_le_right _ _) hC
  have hβr : C * r0 + C * vecNorm e0 / σ ≤ β * σ := by linarith
  have hCr : C * r0 ≤ σ := by
    have : 0 ≤ C * vecNorm e0 / σ := by positivity
    nlinarith
  have hn1 : (1 : ℝ) ≤ cols.2 := by exact_mod_cast hn
  have hn0 : (0 : ℝ) < cols.2 := by linarith
  refine ⟨r0 / cols.2, by positivity, ?_⟩
  intro v0 ρ hv0 hρ M st hM
  have hsmall : cols.2 * ρ ≤ r0 := by
    rw [le_div_iff₀ hn0] at hρ
    linarith
  obtain ⟨δ, hδ, hδρ⟩ : ∃ δ : Vec cols.2, moveAll P.constKeys cols.1 δ v = v0 ∧ ∀ c, |δ c| ≤ ρ := near_displacement hlv hsv hv0
  have hρ0 : 0 ≤ ρ := (abs_nonneg _).trans (hδρ ⟨0, hn⟩)
  have hδn : vecNorm δ ≤ cols.2 * ρ := vecNorm_le_of hρ0 hδρ
  have hρR : ρ ≤ R := by nlinarith
  have hst := started_near (hQ v0 M st) hρR hv0
  rw [show (gnOf P v0 M st).residuals = P.residuals from rfl, ← hrows, show colSlices vecVarOps (gnOf P v0 M st).constKeys v 0
    (gnOf P v0 M st).varSlices = cols from hcols.symm] at hst
  obtain ⟨e1, H1, hy1, -, hnt⟩ := smooth_nearTruth (hQ v0 M st) hR.le hB hrows hcols
  have hHH : H1 = H0 ∧ e1 = e0 := by
    have e : (setUp (gnOf P v0 M st) rows cols v).linearize v = (setUp P rows cols v).linearize v :=
      linearize_cfg (P := setUp P rows cols v) ⟨"GN", M, st, none, none, 0⟩ v
    rw [e, hz] at hy1
    have := Except.ok.inj hy1
    injection this with _ _ e3 e4 _
    exact ⟨e4.symm, e3.symm⟩
  rw [hHH.1, hHH.2, ← hCd] at hnt
  have hnt0 := hnt v0
  obtain ⟨w, e, H, k1, k2, k3, k4⟩ := hnt0.lin δ (hδn.trans (hsmall.trans hr0R))
  have hw : w = v0 := by
    have e1 : correctStates vecVarOps P.constKeys cols.1 (List.ofFn δ) v = .ok (moveAll P.constKeys cols.1 δ v) := correct_vec δ hfit
    have e2 : correctStates vecVarOps P.constKeys cols.1 (List.ofFn δ) v = .ok w := k1
    rw [e1, hδ] at e2
    exact (Except.ok.inj e2).symm
  rw [hw] at k1 k2
  obtain ⟨s', δ', i1, i2, i3, i4, i5⟩ := rate_loop (r := r0) hnt0 hs0 hl hlow hC hn hr0R hβ0.le hβ1 rfl (by rw [← hσd]; exact hβr)
    (by rw [← hσd]; exact hCr) rfl rfl M ⟨v0, ⟨rows.2, cols.2, e, H, 1 / 2 * (e ⬝ᵥ e)⟩, [1 / 2 * (e ⬝ᵥ e)], none, none, 10, none, 0, 0⟩ δ
    ⟨k1, k2, rfl, Or.inl rfl⟩ (hδn.trans hsmall)
  obtain ⟨A, hA⟩ := Option.isSome_iff_exists.1 (i4 hM)
  have hvars : s'.vars = moveAll P.constKeys cols.1 δ' v := by
    have e1 : correctStates vecVarOps P.constKeys cols.1 (List.ofFn δ') v = .ok (moveAll P.constKeys cols.1 δ' v) := correct_vec δ' hfit
    have e2 : correctStates vecVarOps P.constKeys cols.1 (List.ofFn δ') v = .ok s'.vars := i2.vars
    rw [e1] at e2
    exact (Except.ok.inj e2).symm
  refine ⟨{ setUp (gnOf P v0 M st) rows cols v0 with vars := s'.vars, costHistory := (s'.lin.cost :: s'.costs).reverse, info := some A }, ?_, ?_⟩
  · unfold Prob.solve
    refine Eq.trans (congrArg (fun z => z >>= _) (hst : (gnOf P v0 M st).started vecVarOps = _)) ?_
    rw [ok_bindE]
    rw [if_pos (show (gnOf P v0 M st).cfg.solver = "GN" from rfl)]
    unfold solveGN
    refine Eq.trans (congrArg (fun z => z >>= _) (k2 : (setUp (gnOf P v0 M st) rows cols v0).linearize (setUp (gnOf P v0 M st) rows cols v0).vars = _)) ?_
    rw [ok_bindE]
    refine Eq.trans (congrArg (fun z => z >>= _) (i1 : iterLoop (gnStep vecVarOps (setUp (gnOf P v0 M st) rows cols v0))
      (setUp (gnOf P v0 M st) rows cols v0).cfg.maxIters _ = _)) ?_
    rw [ok_bindE]
    refine Eq.trans (congrArg (fun z => z >>= _) i2.lin) ?_
    rw [ok_bindE, hA]
  · show Near P.constKeys v s'.vars _ ∨ ∃ t ∈ st, Near P.constKeys v s'.vars _
    rw [hvars]
    rcases i5 with i5 | ⟨t, ht, i5⟩
    · left
      refine near_move hfit δ' (i5.trans ?_)
      refine (mul_le_mul_of_nonneg_left hδn (pow_nonneg hβ0.le M)).trans (le_of_eq ?_)
      ring
    · right
      exact ⟨t, ht, near_move hfit δ' i5⟩


/-! ### An example with a nonzero residual: `x` and `1/100 + x²` -/

/-- The residual with the components `x` and `1/100 + x²`. -/
noncomputable def bowlRes : Residual ℕ (List ℝ) where
  keys := [0]
  error xs := .ok [(xs.getD 0 []).getD 0 0, 1 / 100 + (xs.getD 0 []).getD 0 0 ^ 2]
  jacobians xs flags := .ok (List.zipWith (fun J f => if f then some J else none)
    [⟨2, 1, fun i _ => if i = 0 then 1 else 2 * (xs.getD 0 []).getD 0 0⟩] flags)

noncomputable def exBowl : Prob ℕ (List ℝ) where
  cfg := ⟨"GN", 5, none, none, none, 1⟩
  varsInit := []
  constKeys := []
  residuals := [bowlRes]
  losses := [l2Loss]
  vars := []
  varSlices := []
  resSlices := []
  sizeErr := 0
  sizeState := 0
  costHistory := []
  info := none
  cov := none

theorem exBowl_smooth : SmoothNear exBowl [(0, [0])] (fun _ => 2) (fun _ xs => [(xs.getD 0 []).getD 0 0, 1 / 100 + (xs.getD 0 []).getD 0 0 ^ 2])
    (fun _ xs => [⟨2, 1, fun i _ => if i = 0 then 1 else 2 * (xs.getD 0 []).getD 0 0⟩]) 1 2 where
  keys := by simp
  losses := rfl
  res := by
    intro r hr
    simp only [exBowl, List.mem_singleton] at hr
    subst hr
    refine ⟨by simp [bowlRes], ?_, ?_⟩
    · intro k hk
      simp only [bowlRes, List.mem_singleton] at hk
      subst hk
      exact ⟨_, rfl⟩
    · intro w ρ hρ hw
      have hc := hw.close 0 0
      have hv : valOf [((0 : ℕ), [(0 : ℝ)])] 0 = [0] := rfl
      rw [hv] at hc
      obtain ⟨x, hx⟩ : ∃ x, x = (valOf w 0).getD 0 0 := ⟨_, rfl⟩
      rw [← hx] at hc
      replace hc : |x - 0| ≤ ρ := hc
      rw [sub_zero] at hc
      have hρ0 : 0 ≤ ρ := (abs_nonneg _).trans hc
      refine ⟨rfl, rfl, rfl, rfl, ?_, ?_, ?_⟩
      · intro t k J h1 h2
        cases t with
        | succ t => simp [bowlRes] at h1
        | zero =>
          simp only [bowlRes, List.getElem?_cons_zero, Option.some.injEq] at h1 h2
          subst h1 h2
          exact ⟨rfl, rfl⟩
      · intro a ha
        have h2 : |(if a = 0 then 0 else -x ^ 2 : ℝ)| ≤ 2 * ρ ^ 2 := by
          split
          · rw [abs_zero]; positivity
          · rw [abs_neg, abs_of_nonneg (sq_nonneg _), ← sq_abs]
            have := pow_le_pow_left₀ (abs_nonneg _) hc 2
            nlinarith [sq_nonneg ρ]
        have h3 : ([(valOf w 0).getD 0 0, 1 / 100 + (valOf w 0).getD 0 0 ^ 2] : List ℝ).getD a 0 +
            lin1 [⟨2, 1, fun i _ => if i = 0 then 1 else 2 * (valOf w 0).getD 0 0⟩] a [[0]] -
            lin1 [⟨2, 1, fun i _ => if i = 0 then 1 else 2 * (valOf w 0).getD 0 0⟩] a [valOf w 0] - ([0, 1 / 100 + 0 ^ 2] : List ℝ).getD a 0 =
            if a = 0 then 0 else -x ^ 2 := by
          simp only [lin1, List.zip_cons_cons, List.zip_nil_right, List.map_cons, List.map_nil, List.sum_cons, List.sum_nil, Finset.sum_range_one,
            ← hx, List.getD_cons_zero]
          have : a = 0 ∨ a = 1 := by omega
          rcases this with rfl | rfl
          · simp
          · simp
            ring
        rw [← h3] at h2
        exact h2
      · intro t J J' a c h1 h2 ha hcc
        cases t with
        | succ t => simp at h1
        | zero =>
          simp only [List.getElem?_cons_zero, Option.some.injEq] at h1 h2
          subst h1 h2
          show |(if a = 0 then 1 else 2 * (valOf w 0).getD 0 0 : ℝ) - (if a = 0 then 1 else 2 * 0 : ℝ)| ≤ 2 * ρ
          rw [← hx]
          split
          · rw [sub_self, abs_zero]; positivity
          · rw [mul_zero, sub_zero, abs_mul, abs_of_pos (by norm_num : (0 : ℝ) < 2)]
            linarith

/-- One iteration from 0 stays there. -/
theorem exBowl_stays : ∃ Pt, (gnOf exBowl [(0, [0])] 1 none).solve vecVarOps = .ok Pt ∧ Pt.vars = [(0, [0])] ∧
    Pt.info = some ⟨1, 1⟩ := by
  obtain ⟨Q, hQ⟩ : ∃ Q, Q = setUp (gnOf exBowl [(0, [0])] 1 none) ([⟨0, 2⟩], 2) ([(0, ⟨0, 1⟩)], 1) [(0, [0])] := ⟨_, rfl⟩
  have h1 : (gnOf exBowl [(0, [0])] 1 none).started vecVarOps = .ok Q := by
    rw [hQ]
    have hq := gnOf_smooth exBowl_smooth [(0, [0])] 1 none
    exact started_near hq zero_le_one (Near.refl _ _)
  obtain ⟨L, hL⟩ : ∃ L : Lin, L = ⟨2, 1, fun i => if i = 0 then 0 else 1 / 100, fun i _ => if i = 0 then 1 else 0, 1 / 2 * (1 / 100) ^ 2⟩ := ⟨_, rfl⟩
  have h2 : Q.linearize [(0, [0])] = .ok L := by
    rw [hQ, hL]
    have hs : Real.sqrt ((100 : ℝ)⁻¹ * 100⁻¹) ^ 2 = 100⁻¹ ^ 2 := by rw [Real.sq_sqrt (by positivity), sq]
    simp [Prob.linearize, setUp, gnOf, exBowl, bowlRes, asmLoop, lookupAll, dictGet, bind, Except.bind, List.lookup, pure,
      Except.pure, pyGet, setSeg, Slice.len, placeJacs, DMat.setBlock, DMat.scale, DMat.zeros, l2Loss, listNorm]
    congr 1
    · funext i
      fin_cases i <;> simp
    · funext i j
      fin_cases i <;> simp
    · norm_num
  have hA : L.A = (1 : Mat L.n L.n) := by
    subst hL
    ext i j
    fin_cases i; fin_cases j
    show (∑ i : Fin 2, (if i = 0 then (1 : ℝ) else 0) * (if i = 0 then (1 : ℝ) else 0)) = 1
    simp
  have hb : L.b = 0 := by
    subst hL
    ext i
    fin_cases i
    show (∑ i : Fin 2, (if i = 0 then (1 : ℝ) else 0) * (if i = 0 then (0 : ℝ) else 1 / 100)) = 0
    simp [Fin.sum_univ_two]
  have h3 : spsolve L.A L.b = .ok (0 : Vec L.n) := by
    unfold spsolve
    rw [if_neg (by rw [hA]; simp), hb, neg_zero, mulVec_zero]
  have h4 : correctStates vecVarOps Q.constKeys Q.varSlices (List.ofFn (0 : Vec L.n)) [(0, [0])] = .ok [(0, [0])] := by
    subst hL hQ
    rw [correct_vec, moveAll_zero]
    intro p hp hk
    simp only [List.mem_singleton] at hp
    subst hp
    exact ⟨⟨0, 1⟩, rfl, rfl, le_rfl⟩
  obtain ⟨g, hg⟩ : ∃ g, L.gradNorm = .ok g := by
    subst hL
    unfold Lin.gradNorm npMax
    exact ⟨_, dif_pos one_pos⟩
  have hvars : Q.vars = [(0, [0])] := by rw [hQ]; rfl
  have hmax : Q.cfg.maxIters = 0 + 1 := by rw [hQ]; rfl
  have h5 : ∃ s, iterLoop (gnStep vecVarOps Q) Q.cfg.maxIters ⟨Q.vars, L, [L.cost], none, none, 10, none, 0, 0⟩ = .ok s ∧
      s.vars = [(0, [0])] ∧ s.info = some ⟨L.n, L.A⟩ := by
    rw [hmax, hvars]
    unfold iterLoop gnStep
    rw [if_neg (by simp [isConverged])]
    simp only [h3, h4, h2, hg, bind, Except.bind]
    exact ⟨_, rfl, rfl, rfl⟩
  obtain ⟨s, h5, h6, h7⟩ := h5
  refine ⟨{ Q with vars := s.vars, costHistory := (L.cost :: s.costs).reverse, info := s.info }, ?_, h6, ?_⟩
  · unfold Prob.solve
    refine Eq.trans (congrArg (fun z => z >>= _) h1) ?_
    rw [ok_bindE, if_pos (show (gnOf exBowl [(0, [0])] 1 none).cfg.solver = "GN" from rfl)]
    unfold solveGN
    rw [hvars, h2, ok_bindE]
    rw [hvars] at h5
    rw [h5, ok_bindE, h6, h2, ok_bindE, h7]
  · show s.info = _
    rw [h7, hA]
    subst hL
    rfl

/-- From near 0 the distance at least halves with every iteration. -/
example : ∃ r : ℝ, 0 < r ∧ ∀ (v0 : List (ℕ × List ℝ)) (ρ : ℝ), Near [] [(0, [0])] v0 ρ → ρ ≤ r → ∀ (M : ℕ), 0 < M →
    ∃ P', (gnOf exBowl v0 M none).solve vecVarOps = .ok P' ∧ Near [] [((0 : ℕ), [(0 : ℝ)])] P'.vars ((1 / 2) ^ M * ρ) := by
  obtain ⟨Pt, h1, h2, h3⟩ := exBowl_stays
  have hc : totalCost [((0 : ℕ), [(0 : ℝ)])] (exBowl.residuals.zip exBowl.losses) = .ok (1 / 2 * (1 / 100) ^ 2) := by
    have hs : Real.sqrt ((100 : ℝ)⁻¹ * 100⁻¹) ^ 2 = 100⁻¹ ^ 2 := by rw [Real.sq_sqrt (by positivity), sq]
    simp [exBowl, bowlRes, totalCost, lookupAll, dictGet, bind, Except.bind, List.lookup, pure, Except.pure, l2Loss, listNorm]
    norm_num
  obtain ⟨r, hr, hall⟩ := C144_linear_rate exBowl Pt [(0, [0])] _ _ _ 1 2 exBowl_smooth one_pos zero_le_two h1 h2 1 1 h3 _ hc 1 one_pos
    (fun z => by rw [one_mul, one_mulVec]) (1 / 2) (by norm_num) (by
      have : Real.sqrt (2 * (1 / 2 * (1 / 100) ^ 2)) = 1 / 100 := by
        rw [show (2 : ℝ) * (1 / 2 * (1 / 100) ^ 2) = (1 / 100) ^ 2 by ring]
        exact Real.sqrt_sq (by norm_num)
      rw [this]
      norm_num [exBowl])
  refine ⟨r, hr, fun v0 ρ hv hρ M hM => ?_⟩
  obtain ⟨P', k1, k2⟩ := hall v0 ρ hv hρ M none hM
  refine ⟨P', k1, ?_⟩
  rcases k2 with k2 | ⟨t, ht, -⟩
  · rw [Nat.cast_one, one_mul] at k2
    exact k2
  · cases ht

end Verif
