import Verif.Props.Damping

/-!
C143: on perfect data Gauss-Newton finds the truth from every sufficiently good initial guess, quadratically.
-/

set_option linter.unusedVariables false
set_option linter.unusedSectionVars false
set_option linter.unusedSimpArgs false

namespace Verif

open Matrix

variable {K S : Type} [DecidableEq K]

/-! ### One step -/

theorem vecNorm_mul_of_le {n : ℕ} {m : ℕ} {H H0 : Mat m n} {l η : ℝ} (hl : 0 < l)
    (hlow : ∀ v : Vec n, l * vecNorm v ^ 2 ≤ v ⬝ᵥ (H0ᵀ * H0) *ᵥ v) (hH : ∀ u, vecNorm (H *ᵥ u - H0 *ᵥ u) ≤ η * vecNorm u)
    (hη : η ≤ Real.sqrt l / 2) (u : Vec n) : Real.sqrt l / 2 * vecNorm u ≤ vecNorm (H *ᵥ u) := by
  have h1 := hlow u
  rw [gram_dot_eq] at h1
  have h2 : Real.sqrt l * vecNorm u ≤ vecNorm (H0 *ᵥ u) := by
    refine (pow_le_pow_iff_left₀ (mul_nonneg (Real.sqrt_nonneg _) (vecNorm_nonneg _)) (vecNorm_nonneg _) two_ne_zero).1 ?_
    rw [mul_pow, Real.sq_sqrt hl.le]
    exact h1
  have h3 : vecNorm (H0 *ᵥ u) ≤ vecNorm (H *ᵥ u) + vecNorm (H0 *ᵥ u - H *ᵥ u) := by
    have := vecNorm_add (H *ᵥ u) (H0 *ᵥ u - H *ᵥ u)
    rwa [add_sub_cancel] at this
  rw [vecNorm_sub (H0 *ᵥ u)] at h3
  have h4 := hH u
  have h5 := mul_le_mul_of_nonneg_right hη (vecNorm_nonneg u)
  linarith

/-- The Gauss-Newton step from the displacement `δ` to a point of zero error. -/
theorem newton_step {m n : ℕ} {H H0 : Mat m n} {l C : ℝ} (hl : 0 < l) (hlow : ∀ v : Vec n, l * vecNorm v ^ 2 ≤ v ⬝ᵥ (H0ᵀ * H0) *ᵥ v)
    {δ : Vec n} {e : Vec m} (hH : ∀ u, vecNorm (H *ᵥ u - H0 *ᵥ u) ≤ C * vecNorm δ * vecNorm u) (he : vecNorm (e - H *ᵥ δ) ≤ C * vecNorm δ ^ 2)
    (hC : C * vecNorm δ ≤ Real.sqrt l / 2) :
    (Hᵀ * H).det ≠ 0 ∧ Real.sqrt l / 2 * vecNorm (δ + (Hᵀ * H)⁻¹ *ᵥ (-(Hᵀ *ᵥ e))) ≤ C * vecNorm δ ^ 2 ∧
      (e = 0 → Real.sqrt l / 2 * vecNorm δ ≤ C * vecNorm δ ^ 2) := by
  have hlo := vecNorm_mul_of_le hl hlow hH hC
  have hs : 0 < Real.sqrt l := Real.sqrt_pos.2 hl
  have hlow2 : ∀ v : Vec n, (Real.sqrt l / 2) ^ 2 * vecNorm v ^ 2 ≤ v ⬝ᵥ (Hᵀ * H) *ᵥ v := by
    intro v
    rw [gram_dot_eq, ← mul_pow]
    exact pow_le_pow_left₀ (mul_nonneg (by positivity) (vecNorm_nonneg _)) (hlo v) 2
  have hd : (Hᵀ * H).det ≠ 0 := det_of_lower (by positivity) hlow2
  refine ⟨hd, ?_, ?_⟩
  · obtain ⟨d, hdd⟩ : ∃ d, d = (Hᵀ * H)⁻¹ *ᵥ (-(Hᵀ *ᵥ e)) := ⟨_, rfl⟩
    rw [← hdd]
    have h1 : (Hᵀ * H) *ᵥ d = -(Hᵀ *ᵥ e) := by rw [hdd, mulVec_mulVec, mul_nonsing_inv _ (isUnit_iff_ne_zero.2 hd), one_mulVec]
    have h2 : Hᵀ *ᵥ (H *ᵥ (δ + d)) = Hᵀ *ᵥ (H *ᵥ δ - e) := by
      rw [mulVec_add H, mulVec_add Hᵀ, mulVec_mulVec d Hᵀ H, h1, mulVec_sub, sub_eq_add_neg]
    have h3 : vecNorm (H *ᵥ (δ + d)) ^ 2 = (H *ᵥ (δ + d)) ⬝ᵥ (H *ᵥ δ - e) := by
      have := congrArg (fun w => (δ + d) ⬝ᵥ w) h2
      rw [dotProduct_mulVec _ Hᵀ, vecMul_transpose, dotProduct_mulVec _ Hᵀ, vecMul_transpose] at this
      rw [vecNorm_sq]
      exact this
    have h4 := (abs_le.1 (dot_le_norm (H *ᵥ (δ + d)) (H *ᵥ δ - e))).2
    rw [← h3, vecNorm_sub] at h4
    have h5 : vecNorm (H *ᵥ (δ + d)) ≤ vecNorm (e - H *ᵥ δ) := by
      rcases (vecNorm_nonneg (H *ᵥ (δ + d))).eq_or_lt with h0 | h0
      · rw [← h0]; exact vecNorm_nonneg _
      · nlinarith
    exact (hlo _).trans (h5.trans he)
  · intro h0
    rw [h0, zero_sub, vecNorm_neg] at he
    exact (hlo δ).trans he

/-! ### The loop -/

/-- A started problem near an assignment `v` with the error `e0`: displacements add up, and the assembled error and Jacobian at
displacement `δ` are those of a smooth function. -/
structure NearTruth (o : VarOps S) (P : Prob K S) (v : List (K × S)) {m n : ℕ} (e0 : Vec m) (H0 : Mat m n) (R C : ℝ) : Prop where
  add : ∀ (δ d : Vec n) w, correctStates o P.constKeys P.varSlices (List.ofFn δ) v = .ok w →
    correctStates o P.constKeys P.varSlices (List.ofFn d) w = correctStates o P.constKeys P.varSlices (List.ofFn (δ + d)) v
  lin : ∀ δ : Vec n, vecNorm δ ≤ R → ∃ w e H, correctStates o P.constKeys P.varSlices (List.ofFn δ) v = .ok w ∧
    P.linearize w = .ok ⟨m, n, e, H, 1 / 2 * (e ⬝ᵥ e)⟩ ∧ vecNorm (e - e0 - H *ᵥ δ) ≤ C * vecNorm δ ^ 2 ∧
    ∀ u, vecNorm (H *ᵥ u - H0 *ᵥ u) ≤ C * vecNorm δ * vecNorm u

/-- A state of the loop at displacement `δ`. -/
structure NearState (o : VarOps S) (P : Prob K S) (v : List (K × S)) {n : ℕ} (κ : ℝ) (δ : Vec n) (s : LoopState K S) : Prop where
  vars : correctStates o P.constKeys P.varSlices (List.ofFn δ) v = .ok s.vars
  lin : P.linearize s.vars = .ok s.lin
  head : s.costs.headD 0 = s.lin.cost
  last : s.deltaCost = none ∨ (0 ≤ s.dx ∧ vecNorm δ ≤ 4 * κ * s.dx ^ 2 ∧ s.info.isSome)

theorem newton_loop {o : VarOps S} {P : Prob K S} {v : List (K × S)} {m n : ℕ} {H0 : Mat m n} {R C l κ r : ℝ} (h : NearTruth o P v 0 H0 R C)
    (hl : 0 < l) (hlow : ∀ v : Vec n, l * vecNorm v ^ 2 ≤ v ⬝ᵥ (H0ᵀ * H0) *ᵥ v) (hC : 0 ≤ C) (hn : 0 < n) (hrR : r ≤ R) (hκ : 0 < κ)
    (hκC : C ≤ κ * (Real.sqrt l / 2)) (hκr : κ * r ≤ 1 / 2) (hCr : C * r ≤ Real.sqrt l / 2) (hf : P.cfg.ftol = none) (hg : P.cfg.gradTol = none) :
    ∀ (N : ℕ) (s : LoopState K S) (δ : Vec n), NearState o P v κ δ s → vecNorm δ ≤ r →
      ∃ (s' : LoopState K S) (δ' : Vec n), iterLoop (gnStep o P) N s = .ok s' ∧ NearState o P v κ δ' s' ∧ vecNorm δ' ≤ r ∧ (0 < N → s'.info.isSome) ∧
        (κ * vecNorm δ' ≤ (κ * vecNorm δ) ^ 2 ^ N ∨ ∃ t ∈ P.cfg.stepTol, vecNorm δ' ≤ 4 * κ * t ^ 2)
  | 0, s, δ, h1, h2 => ⟨s, δ, rfl, h1, h2, fun h => absurd h (lt_irrefl 0), Or.inl (by simp)⟩
  | N + 1, s, δ, h1, h2 => by
    have hs : 0 < Real.sqrt l := Real.sqrt_pos.2 hl
    have hδ0 := vecNorm_nonneg δ
    obtain ⟨w, e, H, g1, g2, g3, g4⟩ := h.lin δ (h2.trans hrR)
    rw [sub_zero] at g3
    obtain ⟨b1, b2, b3, b4⟩ := h1
    have hκδ : κ * vecNorm δ ≤ 1 / 2 := (mul_le_mul_of_nonneg_left h2 hκ.le).trans hκr
    have hCδ : C * vecNorm δ ≤ Real.sqrt l / 2 := (mul_le_mul_of_nonneg_left h2 hC).trans hCr
    obtain ⟨hd, hstep, hzero⟩ := newton_step hl hlow g4 g3 hCδ
    -- from a bound with `√l/2` to one with `κ`
    have conv : ∀ {x : ℝ}, Real.sqrt l / 2 * x ≤ C * vecNorm δ ^ 2 → x ≤ κ * vecNorm δ ^ 2 := by
      intro x hx
      have := mul_le_mul_of_nonneg_right hκC (sq_nonneg (vecNorm δ))
      have h3 : Real.sqrt l / 2 * x ≤ Real.sqrt l / 2 * (κ * vecNorm δ ^ 2) := by linarith
      exact le_of_mul_le_mul_left h3 (by positivity)
    obtain ⟨sv, sl, sc, sd, sg, sx, si, smu, snu⟩ := s
    simp only at b1 b2 b3 b4
    rw [g1] at b1
    obtain rfl := Except.ok.inj b1
    rw [g2] at b2
    obtain rfl := Except.ok.inj b2
    by_cases hconv : isConverged P.cfg sd (sc.headD 0) sx sg = true
    · have hsd : ∃ dc, sd = some dc := by
        cases sd with
        | none => simp [isConverged] at hconv
        | some dc => exact ⟨dc, rfl⟩
      obtain ⟨dc, rfl⟩ := hsd
      obtain ⟨c1, c2, c3⟩ : 0 ≤ sx ∧ vecNorm δ ≤ 4 * κ * sx ^ 2 ∧ si.isSome := by
        rcases b4 with b4 | b4
        · cases b4
        · exact b4
      refine ⟨⟨w, ⟨m, n, e, H, 1 / 2 * (e ⬝ᵥ e)⟩, sc, some dc, sg, sx, si, smu, snu⟩, δ, ?_, ⟨g1, g2, b3, Or.inr ⟨c1, c2, c3⟩⟩, h2, fun _ => c3, ?_⟩
      · unfold iterLoop gnStep
        rw [if_pos hconv]
        rfl
      · have fin : vecNorm δ = 0 → κ * vecNorm δ ≤ (κ * vecNorm δ) ^ 2 ^ (N + 1) := by
          intro h0
          rw [h0, mul_zero]
          positivity
        unfold isConverged at hconv
        simp only [decide_eq_true_eq, hf, hg] at hconv
        rcases hconv with ⟨t, ht, hlt⟩ | ⟨t, ht, -⟩ | hc | hx | ⟨t, ht, -⟩
        · right
          refine ⟨t, ht, c2.trans ?_⟩
          have : sx ^ 2 ≤ t ^ 2 := pow_le_pow_left₀ c1 hlt.le 2
          nlinarith
        · simp at ht
        · left
          refine fin ?_
          rw [b3] at hc
          have hee : e ⬝ᵥ e = 0 := by
            simp only at hc
            linarith
          have := conv (hzero (dotProduct_self_eq_zero.1 hee))
          nlinarith
        · left
          refine fin (le_antisymm ?_ hδ0)
          rw [hx] at c2
          simpa using c2
        · simp at ht
    · obtain ⟨d, hdd⟩ : ∃ d, d = (Hᵀ * H)⁻¹ *ᵥ (-(Hᵀ *ᵥ e)) := ⟨_, rfl⟩
      rw [← hdd] at hstep
      have hnew := conv hstep
      have hnew' : vecNorm (δ + d) ≤ 1 / 2 * vecNorm δ := by nlinarith
      have hr' : vecNorm (δ + d) ≤ r := by linarith
      obtain ⟨w', e', H', k1, k2, k3, k4⟩ := h.lin (δ + d) (hr'.trans hrR)
      have hsp : spsolve (Lin.mk m n e H (1 / 2 * (e ⬝ᵥ e))).A (Lin.mk m n e H (1 / 2 * (e ⬝ᵥ e))).b = .ok d := by
        rw [hdd]; exact if_neg hd
      have hw' : correctStates o P.constKeys P.varSlices (List.ofFn d) w = .ok w' := by rw [h.add δ d w g1]; exact k1
      obtain ⟨gn, hgn⟩ : ∃ gn, (Lin.mk m n e' H' (1 / 2 * (e' ⬝ᵥ e'))).gradNorm = .ok gn := by
        unfold Lin.gradNorm npMax
        exact ⟨_, dif_pos hn⟩
      have hst : ∃ r : LoopState K S, gnStep o P ⟨w, ⟨m, n, e, H, 1 / 2 * (e ⬝ᵥ e)⟩, sc, sd, sg, sx, si, smu, snu⟩ = .ok (r, false) ∧
          r.vars = w' ∧ r.lin = ⟨m, n, e', H', 1 / 2 * (e' ⬝ᵥ e')⟩ ∧ r.costs.headD 0 = 1 / 2 * (e' ⬝ᵥ e') ∧ r.dx = vecNorm d ∧ r.info.isSome := by
        unfold gnStep
        rw [if_neg hconv]
        simp only [hsp]
        refine ⟨_, bind3_ok (f := fun v => P.linearize v) (g := fun L => L.gradNorm) (k := fun v L g => (_, false)) hw' k2 hgn, rfl, rfl, rfl, rfl, rfl⟩
      obtain ⟨q, q1, q2, q3, q4, q5, q6⟩ := hst
      have hdn : vecNorm δ ≤ 2 * vecNorm d := by
        have h1 := vecNorm_add (δ + d) (-d)
        rw [add_neg_cancel_right, vecNorm_neg] at h1
        linarith
      have hdn0 := vecNorm_nonneg d
      have hq5 : vecNorm (δ + d) ≤ 4 * κ * q.dx ^ 2 := by
        rw [q5]
        refine hnew.trans ?_
        have : vecNorm δ ^ 2 ≤ (2 * vecNorm d) ^ 2 := pow_le_pow_left₀ hδ0 hdn 2
        nlinarith
      obtain ⟨s', δ', i1, i2, i3, i4, i5⟩ := newton_loop h hl hlow hC hn hrR hκ hκC hκr hCr hf hg N q (δ + d)
        ⟨by rw [q2]; exact k1, by rw [q2, q3]; exact k2, by rw [q4, q3], Or.inr ⟨by rw [q5]; exact hdn0, hq5, q6⟩⟩ hr'
      · refine ⟨s', δ', ?_, i2, i3, fun _ => ?_, ?_⟩
        · unfold iterLoop
          rw [q1]
          exact i1
        · cases N with
          | zero => cases i1; exact q6
          | succ N => exact i4 (Nat.succ_pos _)
        · refine i5.imp (fun hi => hi.trans ?_) id
          rw [pow_succ 2 N, mul_comm (2 ^ N) 2, pow_mul]
          refine pow_le_pow_left₀ (mul_nonneg hκ.le (vecNorm_nonneg _)) ?_ _
          rw [mul_pow, pow_two κ, mul_assoc]
          exact mul_le_mul_of_nonneg_left hnew hκ.le


/-! ### Smooth residuals near the truth -/

/-- `w` assigns the variables of `v`, with the same sizes and the same values of the constants, every component within `ρ`. -/
structure Near (const : List K) (v w : List (K × List ℝ)) (ρ : ℝ) : Prop where
  shape : SameShape v w
  const : ∀ k ∈ const, w.lookup k = v.lookup k
  close : ∀ k i, |(valOf w k).getD i 0 - (valOf v k).getD i 0| ≤ ρ

/-- Row `a` of `Σ_t J_t x_t`. -/
noncomputable def lin1 (Js : List DMat) (a : ℕ) (xs : List (List ℝ)) : ℝ :=
  ((Js.zip xs).map fun p => ∑ c ∈ Finset.range p.1.cols, p.1.get a c * p.2.getD c 0).sum

/-- Residuals that are smooth near an assignment `v`: residual `r` has `N r` components, at the values `xs` of its variables the error
`E r xs` and the Jacobians `D r xs`; inside the ball of radius `R` around `v`, at distance `ρ`, the linearization of the error, evaluated at
`v`, is the error at `v` up to `B ρ²`, and the Jacobians differ from those at `v` by at most `B ρ`. -/
structure SmoothNear (P : Prob K (List ℝ)) (v : List (K × List ℝ)) (N : Residual K (List ℝ) → ℕ)
    (E : Residual K (List ℝ) → List (List ℝ) → List ℝ) (D : Residual K (List ℝ) → List (List ℝ) → List DMat) (R B : ℝ) : Prop where
  keys : (v.map Prod.fst).Nodup
  losses : P.losses = P.residuals.map fun _ => l2Loss
  res : ∀ r ∈ P.residuals, r.keys.Nodup ∧ (∀ k ∈ r.keys, ∃ x, v.lookup k = some x) ∧
    ∀ (w : List (K × List ℝ)) (ρ : ℝ), ρ ≤ R → Near P.constKeys v w ρ →
      r.error (r.keys.map (valOf w)) = .ok (E r (r.keys.map (valOf w))) ∧ (E r (r.keys.map (valOf w))).length = N r ∧
      r.jacobians (r.keys.map (valOf w)) (r.keys.map fun k => !(P.constKeys.contains k)) =
        .ok (linJacs P.constKeys r.keys (D r (r.keys.map (valOf w)))) ∧
      (D r (r.keys.map (valOf w))).length = r.keys.length ∧
      (∀ (t : ℕ) (k : K) (J : DMat), r.keys[t]? = some k → (D r (r.keys.map (valOf w)))[t]? = some J →
        J.rows = N r ∧ J.cols = (valOf v k).length) ∧
      (∀ a, a < N r → |(E r (r.keys.map (valOf w))).getD a 0 + lin1 (D r (r.keys.map (valOf w))) a (r.keys.map (valOf v)) -
        lin1 (D r (r.keys.map (valOf w))) a (r.keys.map (valOf w)) - (E r (r.keys.map (valOf v))).getD a 0| ≤ B * ρ ^ 2) ∧
      ∀ (t : ℕ) (J J' : DMat) (a c : ℕ), (D r (r.keys.map (valOf w)))[t]? = some J → (D r (r.keys.map (valOf v)))[t]? = some J' →
        a < N r → c < J.cols → |J.get a c - J'.get a c| ≤ B * ρ

theorem Near.refl (const : List K) (v : List (K × List ℝ)) : Near const v v 0 :=
  ⟨⟨rfl, rfl⟩, fun _ _ => rfl, fun _ _ => by rw [sub_self, abs_zero]⟩

/-- The residual linearized at `w`. -/
noncomputable def resAt (N : Residual K (List ℝ) → ℕ) (E : Residual K (List ℝ) → List (List ℝ) → List ℝ)
    (D : Residual K (List ℝ) → List (List ℝ) → List DMat) (w : List (K × List ℝ)) (r : Residual K (List ℝ)) : Residual K (List ℝ) :=
  linRes r.keys (D r (r.keys.map (valOf w))) (N r) fun a =>
    (E r (r.keys.map (valOf w))).getD a 0 - lin1 (D r (r.keys.map (valOf w))) a (r.keys.map (valOf w))

/-- The problem linearized at `w`. -/
noncomputable def probAt (P : Prob K (List ℝ)) (N : Residual K (List ℝ) → ℕ) (E : Residual K (List ℝ) → List (List ℝ) → List ℝ)
    (D : Residual K (List ℝ) → List (List ℝ) → List DMat) (w : List (K × List ℝ)) : Prob K (List ℝ) :=
  { P with varsInit := w, residuals := P.residuals.map (resAt N E D w) }

theorem SameShape.valOf_length {v w : List (K × List ℝ)} (h : SameShape v w) {k : K} {x : List ℝ} (hx : v.lookup k = some x) :
    (valOf w k).length = x.length := by
  obtain ⟨y, h1, h2⟩ := h.lookup hx
  unfold valOf
  rw [h1]
  exact h2

section
variable {P : Prob K (List ℝ)} {v : List (K × List ℝ)} {N : Residual K (List ℝ) → ℕ} {E : Residual K (List ℝ) → List (List ℝ) → List ℝ}
  {D : Residual K (List ℝ) → List (List ℝ) → List DMat} {R B : ℝ}

theorem near_lookup (h : SmoothNear P v N E D R B) {w : List (K × List ℝ)} {ρ : ℝ} (hw : Near P.constKeys v w ρ)
    {r : Residual K (List ℝ)} (hr : r ∈ P.residuals) : lookupAll w r.keys = .ok (r.keys.map (valOf w)) :=
  lookupAll_of fun k hk => by
    obtain ⟨x, hx⟩ := (h.res r hr).2.1 k hk
    obtain ⟨y, hy, -⟩ := hw.shape.lookup hx
    exact ⟨y, hy⟩

theorem probAt_linear (h : SmoothNear P v N E D R B) {w : List (K × List ℝ)} {ρ : ℝ} (hρ : ρ ≤ R) (hw : Near P.constKeys v w ρ) :
    LinearProblem (probAt P N E D w) where
  keys := by show (w.map Prod.fst).Nodup; rw [hw.shape.1]; exact h.keys
  losses := by
    show P.losses = (P.residuals.map _).map _
    rw [h.losses, List.map_map]
    rfl
  residuals := by
    intro q hq
    obtain ⟨r, hr, rfl⟩ := List.mem_map.1 hq
    obtain ⟨h1, h2, h3⟩ := h.res r hr
    obtain ⟨g1, g2, g3, g4, g5, g6, g7⟩ := h3 w ρ hρ hw
    refine ⟨_, _, _, _, rfl, h1, g4, fun t k J ht hJ => ?_⟩
    obtain ⟨a1, a2⟩ := g5 t k J ht hJ
    refine ⟨a1, ?_⟩
    obtain ⟨x, hx⟩ := h2 k (List.mem_of_getElem? ht)
    obtain ⟨y, hy, hyl⟩ := hw.shape.lookup hx
    refine ⟨y, hy, ?_⟩
    rw [a2, hyl]
    unfold valOf
    rw [hx]
    rfl

theorem resAt_self {r : Residual K (List ℝ)} {w : List (K × List ℝ)} (h : (E r (r.keys.map (valOf w))).length = N r) :
    (resAt N E D w r).error (r.keys.map (valOf w)) = .ok (E r (r.keys.map (valOf w))) := by
  show Except.ok (linErr _ _ _ _) = _
  congr 1
  refine List.ext_getElem (by simp [linErr, h]) fun a h1 h2 => ?_
  have ha : a < N r := by rw [← h]; exact h2
  have := linErr_getD (n := N r) (b := fun a => (E r (r.keys.map (valOf w))).getD a 0 - lin1 (D r (r.keys.map (valOf w))) a (r.keys.map (valOf w)))
    (Js := D r (r.keys.map (valOf w))) (xs := r.keys.map (valOf w)) ha
  rw [List.getD_eq_getElem?_getD, List.getElem?_eq_getElem h1, Option.getD_some] at this
  rw [this, List.getD_eq_getElem?_getD, List.getElem?_eq_getElem h2, Option.getD_some]
  show _ - lin1 _ _ _ + lin1 _ _ _ = _
  ring

/-! ### Setting up -/

/-- The row slices of residuals of the given sizes. -/
def rowSpans : List ℕ → ℕ → List Slice × ℕ
  | [], i => ([], i)
  | n :: l, i => (⟨i, i + n⟩ :: (rowSpans l (i + n)).1, (rowSpans l (i + n)).2)

theorem rowSlices_eq {S : Type} {w : List (K × S)} : ∀ {rs : List (Residual K S)} {ns : List ℕ},
    List.Forall₂ (fun r n => ∃ xs e, lookupAll w r.keys = .ok xs ∧ r.error xs = .ok e ∧ e.length = n) rs ns →
    ∀ i, rowSlices w rs i = .ok (rowSpans ns i)
  | _, _, .nil, i => rfl
  | r :: rs, n :: ns, .cons ⟨xs, e, h1, h2, h3⟩ ht, i => by
    subst h3
    unfold rowSlices
    simp only [h1, h2, rowSlices_eq ht, bind, Except.bind]
    rfl

theorem cols_shape {const : List K} : ∀ {v w : List (K × List ℝ)}, SameShape v w → ∀ (i : ℕ) (d : List (K × Slice)),
    colSlices vecVarOps const w i d = colSlices vecVarOps const v i d
  | [], [], h, i, d => rfl
  | [], q :: w, h, i, d => by simp [SameShape] at h
  | p :: v, [], h, i, d => by simp [SameShape] at h
  | (k, x) :: v, (k', y) :: w, h, i, d => by
    obtain ⟨h1, h2⟩ := h
    simp only [List.map_cons, List.cons.injEq] at h1 h2
    obtain ⟨rfl, h1⟩ := h1
    have ih := fun i d => cols_shape (const := const) (v := v) (w := w) ⟨h1, h2.2⟩ i d
    have hd : vecVarOps.dof y = vecVarOps.dof x := h2.1
    unfold colSlices
    rw [hd, ih, ih]

/-- A problem that has been set up. -/
def setUp (P : Prob K (List ℝ)) (rows : List Slice × ℕ) (cols : List (K × Slice) × ℕ) (v0 : List (K × List ℝ)) : Prob K (List ℝ) :=
  { P with varsInit := v0, vars := v0, varSlices := cols.1, resSlices := rows.1, sizeErr := rows.2, sizeState := cols.2 }

theorem started_near (h : SmoothNear P v N E D R B) {w : List (K × List ℝ)} {ρ : ℝ} (hρ : ρ ≤ R) (hw : Near P.constKeys v w ρ) :
    Prob.started vecVarOps { P with varsInit := w } =
      .ok (setUp P (rowSpans (P.residuals.map N) 0) (colSlices vecVarOps P.constKeys v 0 P.varSlices) w) := by
  have hrows : rowSlices w P.residuals 0 = .ok (rowSpans (P.residuals.map N) 0) := by
    refine rowSlices_eq ?_ 0
    rw [List.forall₂_map_right_iff, List.forall₂_same]
    intro r hr
    obtain ⟨g1, g2, -⟩ := (h.res r hr).2.2 w ρ hρ hw
    exact ⟨_, _, near_lookup h hw hr, g1, g2⟩
  unfold Prob.started Prob.computeSize
  show (rowSlices w P.residuals 0 >>= _) = _
  rw [hrows, ← cols_shape hw.shape]
  rfl

theorem started_probAt (h : SmoothNear P v N E D R B) {w : List (K × List ℝ)} {ρ : ℝ} (hρ : ρ ≤ R) (hw : Near P.constKeys v w ρ) :
    (probAt P N E D w).started vecVarOps =
      .ok (setUp (probAt P N E D w) (rowSpans (P.residuals.map N) 0) (colSlices vecVarOps P.constKeys v 0 P.varSlices) w) := by
  have hrows : rowSlices w (P.residuals.map (resAt N E D w)) 0 = .ok (rowSpans (P.residuals.map N) 0) := by
    refine rowSlices_eq ?_ 0
    rw [List.forall₂_map_right_iff, List.forall₂_map_left_iff, List.forall₂_same]
    intro r hr
    obtain ⟨g1, g2, -⟩ := (h.res r hr).2.2 w ρ hρ hw
    have hl := near_lookup h hw hr
    exact ⟨_, _, hl, resAt_self g2, g2⟩
  unfold Prob.started Prob.computeSize
  show (rowSlices w (P.residuals.map (resAt N E D w)) 0 >>= _) = _
  rw [hrows, ← cols_shape hw.shape]
  rfl

theorem asmLoop_swap {P Q : Prob K (List ℝ)} {w : List (K × List ℝ)} {f : Residual K (List ℝ) → Residual K (List ℝ)}
    (c1 : Q.constKeys = P.constKeys) (c2 : Q.resSlices = P.resSlices) (c3 : Q.sizeErr = P.sizeErr) (c4 : Q.varSlices = P.varSlices) :
    ∀ (l : List (Residual K (List ℝ))) (ls : List Loss) (i : ℕ) (a : Asm),
      (∀ r ∈ l, (f r).keys = r.keys ∧ ∃ xs, lookupAll w r.keys = .ok xs ∧ (f r).error xs = r.error xs ∧
        (f r).jacobians xs (r.keys.map fun k => !(P.constKeys.contains k)) = r.jacobians xs (r.keys.map fun k => !(P.constKeys.contains k))) →
      asmLoop Q w i ((l.map f).zip ls) a = asmLoop P w i (l.zip ls) a
  | [], ls, i, a, h => by simp [asmLoop]
  | r :: l, [], i, a, h => by simp [asmLoop]
  | r :: l, s :: ls, i, a, h => by
    obtain ⟨g1, xs, g2, g3, g4⟩ := h r (by simp)
    have ih := fun a => asmLoop_swap c1 c2 c3 c4 l ls (i + 1) a fun r hr => h r (by simp [hr])
    rw [List.map_cons, List.zip_cons_cons, List.zip_cons_cons]
    unfold asmLoop
    simp only [g1, g2, c1, c2, c3, c4, g3, g4, ih, bind, Except.bind]

theorem linearize_probAt (h : SmoothNear P v N E D R B) {w : List (K × List ℝ)} {ρ : ℝ} (hρ : ρ ≤ R) (hw : Near P.constKeys v w ρ)
    (rows : List Slice × ℕ) (cols : List (K × Slice) × ℕ) (v0 v0' : List (K × List ℝ)) :
    (setUp (probAt P N E D w) rows cols v0').linearize w = (setUp P rows cols v0).linearize w := by
  unfold Prob.linearize
  have := asmLoop_swap (P := setUp P rows cols v0) (Q := setUp (probAt P N E D w) rows cols v0') (w := w) (f := resAt N E D w) rfl rfl rfl rfl
    P.residuals P.losses 0 ⟨fun _ => 0, DMat.zeros rows.2 cols.2, 0⟩ (by
      intro r hr
      obtain ⟨g1, g2, g3, -⟩ := (h.res r hr).2.2 w ρ hρ hw
      refine ⟨rfl, _, near_lookup h hw hr, ?_, ?_⟩
      · rw [resAt_self g2, g1]
      · exact g3.symm)
  exact congrArg (fun z : Except Err Asm => z >>= fun a : Asm =>
    (pure ⟨rows.2, cols.2, fun i => a.e i, fun i j => a.H.get i j, a.cost⟩ : Except Err Lin)) this

/-! ### The stacked error and Jacobian near the truth -/

/-- The linearization at an assignment near the truth: it succeeds, and these are its rows. -/
theorem near_rows (h : SmoothNear P v N E D R B) (hR : 0 ≤ R) {w : List (K × List ℝ)} {ρ : ℝ} (hρ : ρ ≤ R) (hw : Near P.constKeys v w ρ)
    {rows : List Slice × ℕ} {cols : List (K × Slice) × ℕ} (hrows : rows = rowSpans (P.residuals.map N) 0)
    (hcols : cols = colSlices vecVarOps P.constKeys v 0 P.varSlices) (v0 : List (K × List ℝ)) :
    ∃ (e : Vec rows.2) (H : Mat rows.2 cols.2), (setUp P rows cols v0).linearize w = .ok ⟨rows.2, cols.2, e, H, 1 / 2 * (e ⬝ᵥ e)⟩ ∧
      ∀ (i : ℕ) (r : Residual K (List ℝ)) (s : Slice) (a : ℕ) (q : Fin rows.2), P.residuals[i]? = some r → rows.1[i]? = some s →
        (q : ℕ) = s.start + a → a < N r → e q = (E r (r.keys.map (valOf w))).getD a 0 ∧
        ∀ δ : Vec cols.2, (H *ᵥ δ) q = ((freeVars P.constKeys v).map fun p => ∑ c ∈ Finset.range p.2.length,
          jacOf r.keys (linJacs P.constKeys r.keys (D r (r.keys.map (valOf w)))) p.1 a c * dirOf cols.1 δ p.1 c).sum := by
  obtain ⟨P1, e, H, c, h1, hL, ha, -, -⟩ := linear_coords (probAt_linear h hρ hw)
  rw [started_probAt h hρ hw, ← hrows, ← hcols] at h1
  obtain rfl := Except.ok.inj h1
  have hz := ha.lin 0 _ ha.zero
  rw [mulVec_zero, add_zero] at hz
  have hlin : (setUp P rows cols v).linearize w = .ok ⟨rows.2, cols.2, e, H, 1 / 2 * (e ⬝ᵥ e)⟩ := by
    rw [← linearize_probAt h hρ hw rows cols v w]; exact hz
  have hst := started_near h hR (Near.refl P.constKeys v)
  rw [← hrows, ← hcols] at hst
  refine ⟨e, H, by rw [← linearize_probAt h hρ hw rows cols v0 w]; exact hz, fun i r s a q hi hs hq haN => ?_⟩
  have hr := List.mem_of_getElem? hi
  obtain ⟨hn, hx, hall⟩ := h.res r hr
  obtain ⟨g1, g2, g3, g4, g5, -, -⟩ := hall w ρ hρ hw
  obtain ⟨-, rows2, -, -, -, -⟩ := C37_rows vecVarOps _ _ hst
  obtain ⟨xs0, e0, s0, r1, r2, r3, r4⟩ := rows2 i r hi
  replace r3 : rows.1[i]? = some s0 := r3
  rw [hs] at r3; cases r3
  rw [near_lookup h (Near.refl P.constKeys v) hr] at r1
  cases r1
  obtain ⟨f1, f2, -⟩ := hall v 0 hR (Near.refl P.constKeys v)
  rw [f1] at r2
  obtain rfl := Except.ok.inj r2
  rw [f2] at r4
  have hz : (P.residuals.zip P.losses)[i]? = some (r, l2Loss) := by
    rw [h.losses, List.getElem?_zip_eq_some]
    refine ⟨hi, ?_⟩
    rw [List.getElem?_map, hi]
    rfl
  have key := fun δ : Vec cols.2 => row_direction vecVarOps { P with varsInit := v } _ hst h.keys w hw.shape.1 _ hlin (dirOf cols.1 δ) δ (by
      intro k x s' c' p hp hsl hc hpc
      unfold dirOf
      have hsl' : cols.1.lookup k = some s' := hsl
      rw [hsl']
      show _ = if h : s'.start + c' < cols.2 then δ ⟨s'.start + c', h⟩ else 0
      rw [dif_pos (by rw [← hpc]; exact p.2)]
      congr 1
      exact Fin.ext hpc) i r l2Loss hz s hs _ _ (linJacs P.constKeys r.keys (D r (r.keys.map (valOf w)))) (near_lookup h hw hr) g1 g3
    (by rw [g2]; omega) hn
    (by
      intro t k J t1 hk t2
      exact (linJacs_some g4 t1 t2).1 hk)
    (by
      intro t k J x t1 t2 hxm
      obtain ⟨-, hJ⟩ := linJacs_some g4 t1 t2
      obtain ⟨a1, a2⟩ := g5 t k J t1 hJ
      refine ⟨by rw [g2]; exact a1, ?_⟩
      rw [a2]
      unfold valOf
      rw [lookup_mem h.keys hxm]
      rfl) q a hq (by rw [g2]; exact haN)
  refine ⟨?_, fun δ => ?_⟩
  · have := (key 0).1
    simp only [l2Loss, Real.sqrt_one, one_mul] at this
    exact this
  · have := (key δ).2
    simp only [l2Loss, Real.sqrt_one, one_mul] at this
    exact this

/-- Every row belongs to a component of a residual. -/
theorem row_owner (h : SmoothNear P v N E D R B) (hR : 0 ≤ R) {rows : List Slice × ℕ} (hrows : rows = rowSpans (P.residuals.map N) 0)
    (q : Fin rows.2) : ∃ (i : ℕ) (r : Residual K (List ℝ)) (s : Slice) (a : ℕ), P.residuals[i]? = some r ∧ rows.1[i]? = some s ∧
      (q : ℕ) = s.start + a ∧ a < N r := by
  have hst := started_near h hR (Near.refl P.constKeys v)
  obtain ⟨cols, hcols⟩ : ∃ cols, cols = colSlices vecVarOps P.constKeys v 0 P.varSlices := ⟨_, rfl⟩
  rw [← hrows, ← hcols] at hst
  obtain ⟨rows1, rows2, -, -, -, rows6⟩ := C37_rows vecVarOps _ _ hst
  obtain ⟨i, ⟨s, hs, hs1, hs2⟩, -⟩ := rows6 q q.2
  have hi : i < P.residuals.length := by
    have : i < rows.1.length := (List.getElem?_eq_some_iff.1 hs).1
    have hl : rows.1.length = P.residuals.length := rows1
    omega
  have hir : P.residuals[i]? = some P.residuals[i] := List.getElem?_eq_getElem hi
  obtain ⟨xs0, e0, s0, r1, r2, r3, r4⟩ := rows2 i _ hir
  replace r3 : rows.1[i]? = some s0 := r3
  replace hs : rows.1[i]? = some s := hs
  rw [hs] at r3; cases r3
  rw [near_lookup h (Near.refl P.constKeys v) (List.mem_of_getElem? hir)] at r1
  cases r1
  obtain ⟨f1, f2, -⟩ := (h.res _ (List.mem_of_getElem? hir)).2.2 v 0 hR (Near.refl P.constKeys v)
  rw [f1] at r2
  obtain rfl := Except.ok.inj r2
  rw [f2] at r4
  exact ⟨i, _, s, q - s.start, hir, hs, by omega, by omega⟩

theorem jacOf_sub_le {const ks : List K} {Js Js' : List DMat} {n a c : ℕ} {k : K} {b : ℝ} (hb : 0 ≤ b) (hl : Js.length = ks.length)
    (hl' : Js'.length = ks.length) (hd : ∀ (t : ℕ) (J J' : DMat), ks[t]? = some k → Js[t]? = some J → Js'[t]? = some J' →
      |J.get a c - J'.get a c| ≤ b) :
    |jacOf ks (linJacs const ks Js) k a c - jacOf ks (linJacs const ks Js') k a c| ≤ b := by
  induction ks generalizing Js Js' with
  | nil => simpa [jacOf] using hb
  | cons k' ks ih =>
    obtain ⟨J, Js, rfl⟩ : ∃ J l, Js = J :: l := by
      cases Js with
      | nil => simp at hl
      | cons J l => exact ⟨J, l, rfl⟩
    obtain ⟨J', Js', rfl⟩ : ∃ J l, Js' = J :: l := by
      cases Js' with
      | nil => simp at hl'
      | cons J l => exact ⟨J, l, rfl⟩
    have e : ∀ (J : DMat) Js, linJacs const (k' :: ks) (J :: Js) = (if k' ∈ const then none else some J) :: linJacs const ks Js := by
      intro J Js
      by_cases hk : k' ∈ const <;> simp [linJacs, hk]
    rw [e, e]
    by_cases hk : k = k'
    · subst hk
      unfold jacOf
      rw [List.zip_cons_cons, List.zip_cons_cons, lookup_cons_self, lookup_cons_self]
      by_cases hc : k ∈ const
      · rw [if_pos hc, if_pos hc]; simpa using hb
      · rw [if_neg hc, if_neg hc]
        exact hd 0 J J' rfl rfl rfl
    · unfold jacOf
      rw [List.zip_cons_cons, List.zip_cons_cons, lookup_cons_ne _ _ hk, lookup_cons_ne _ _ hk]
      exact ih (by simpa using hl) (by simpa using hl') fun t J J' h1 h2 h3 => hd (t + 1) J J' h1 h2 h3

theorem dirOf_le {n : ℕ} (sl : List (K × Slice)) (u : Vec n) (k : K) (c : ℕ) : |dirOf sl u k c| ≤ vecNorm u := by
  unfold dirOf
  split
  · exact entry_le_norm u _
  · rw [abs_zero]; exact vecNorm_nonneg u

theorem vecNorm_le_of {m : ℕ} {x : Vec m} {c : ℝ} (hc : 0 ≤ c) (h : ∀ q, |x q| ≤ c) : vecNorm x ≤ m * c := by
  refine (pow_le_pow_iff_left₀ (vecNorm_nonneg x) (by positivity) two_ne_zero).1 ?_
  rw [vecNorm_sq]
  have h1 : x ⬝ᵥ x ≤ ∑ _q : Fin m, c ^ 2 := by
    refine Finset.sum_le_sum fun q _ => ?_
    rw [← sq, ← sq_abs]
    exact pow_le_pow_left₀ (abs_nonneg _) (h q) 2
  rw [Finset.sum_const, Finset.card_univ, Fintype.card_fin, nsmul_eq_mul] at h1
  refine h1.trans ?_
  rw [mul_pow]
  refine mul_le_mul_of_nonneg_right ?_ (sq_nonneg c)
  rcases Nat.eq_zero_or_pos m with rfl | hm
  · simp
  · have : (1 : ℝ) ≤ m := by exact_mod_cast hm
    nlinarith

theorem list_sum_abs_le {ι : Type} (l : List ι) (f : ι → ℝ) (g : ι → ℕ) (b : ℝ) (h : ∀ p ∈ l, |f p| ≤ g p * b) :
    |(l.map f).sum| ≤ ((l.map g).sum : ℕ) * b := by
  induction l with
  | nil => simp
  | cons p l ih =>
    rw [List.map_cons, List.sum_cons, List.map_cons, List.sum_cons, Nat.cast_add, add_mul]
    exact (abs_add_le _ _).trans (add_le_add (h p (by simp)) (ih fun p hp => h p (by simp [hp])))

theorem list_sum_sub {ι : Type} (l : List ι) (f g : ι → ℝ) : (l.map f).sum - (l.map g).sum = (l.map fun p => f p - g p).sum := by
  induction l with
  | nil => simp
  | cons p l ih => simp only [List.map_cons, List.sum_cons]; rw [← ih]; ring

/-- A problem with smooth residuals is a smooth problem near `v`. -/
theorem smooth_nearTruth (h : SmoothNear P v N E D R B) (hR : 0 ≤ R) (hB : 0 ≤ B)
    {rows : List Slice × ℕ} {cols : List (K × Slice) × ℕ} (hrows : rows = rowSpans (P.residuals.map N) 0)
    (hcols : cols = colSlices vecVarOps P.constKeys v 0 P.varSlices) :
    ∃ (e0 : Vec rows.2) (H0 : Mat rows.2 cols.2), (setUp P rows cols v).linearize v = .ok ⟨rows.2, cols.2, e0, H0, 1 / 2 * (e0 ⬝ᵥ e0)⟩ ∧
      ((∀ r ∈ P.residuals, ∀ a, a < N r → (E r (r.keys.map (valOf v))).getD a 0 = 0) → e0 = 0) ∧
      ∀ v0, NearTruth vecVarOps (setUp P rows cols v0) v e0 H0 R (rows.2 * (B * (cols.2 + 1))) := by
  have hlv := probAt_linear h hR (Near.refl P.constKeys v)
  have hsv := started_probAt h hR (Near.refl P.constKeys v)
  rw [← hrows, ← hcols] at hsv
  have hfit : SlicesFit P.constKeys cols.1 cols.2 v := linear_fit hlv hsv
  have hsize : cols.2 = ((freeVars P.constKeys v).map fun p => p.2.length).sum := (C37_columns vecVarOps _ _ hsv h.keys).2.1
  obtain ⟨e0, H0, b1, b2⟩ := near_rows h hR hR (Near.refl P.constKeys v) hrows hcols v
  refine ⟨e0, H0, b1, fun hz => ?_, fun v0 => ⟨fun δ d w hw => ?_, fun δ hδ => ?_⟩⟩
  · funext q
    obtain ⟨i, r, s, a, c1, c2, c3, c4⟩ := row_owner h hR hrows q
    rw [(b2 i r s a q c1 c2 c3 c4).1]
    exact hz r (List.mem_of_getElem? c1) a c4
  · have e1 : ∀ δ : Vec cols.2, correctStates vecVarOps (setUp P rows cols v0).constKeys (setUp P rows cols v0).varSlices (List.ofFn δ) v =
      .ok (moveAll P.constKeys cols.1 δ v) := fun δ => correct_vec δ hfit
    rw [e1] at hw
    obtain rfl := Except.ok.inj hw
    rw [e1]
    refine (correct_vec d (moveAll_fit hfit)).trans ?_
    rw [moveAll_add]
  · have hnear : Near P.constKeys v (moveAll P.constKeys cols.1 δ v) (vecNorm δ) := by
      refine ⟨moveAll_shape δ v, fun k hk => moveAll_const δ hk, fun k i => ?_⟩
      have := entry_diff hfit δ 0 k i
      rwa [moveAll_zero, sub_zero] at this
    obtain ⟨w, hwd⟩ : ∃ w, w = moveAll P.constKeys cols.1 δ v := ⟨_, rfl⟩
    rw [← hwd] at hnear
    obtain ⟨e, H, f1, f2⟩ := near_rows h hR hδ hnear hrows hcols v0
    have hδ0 := vecNorm_nonneg δ
    refine ⟨w, e, H, by rw [hwd]; exact correct_vec δ hfit, f1, ?_, fun u => ?_⟩
    · have hle : ∀ q, |(e - e0 - H *ᵥ δ) q| ≤ B * (cols.2 + 1) * vecNorm δ ^ 2 := by
        intro q
        obtain ⟨i, r, s, a, c1, c2, c3, c4⟩ := row_owner h hR hrows q
        have hr := List.mem_of_getElem? c1
        obtain ⟨hn, hx, hall⟩ := h.res r hr
        obtain ⟨g1, g2, g3, g4, g5, g6, g7⟩ := hall w _ hδ hnear
        obtain ⟨k1, k2⟩ := f2 i r s a q c1 c2 c3 c4
        have hmv := linErr_move hlv hsv δ (n := N r) (b := fun _ => 0) (Js := D r (r.keys.map (valOf w))) hn g4 (by
          intro t k J t1 t2
          obtain ⟨a1, a2⟩ := g5 t k J t1 t2
          refine ⟨a1, ?_⟩
          obtain ⟨x, hx⟩ := hx k (List.mem_of_getElem? t1)
          refine ⟨x, hx, ?_⟩
          rw [a2]
          unfold valOf
          rw [hx]
          rfl) c4
        have hmv2 : (linErr (N r) (fun _ => 0) (D r (r.keys.map (valOf w))) (r.keys.map (valOf w))).getD a 0 =
            (linErr (N r) (fun _ => 0) (D r (r.keys.map (valOf w))) (r.keys.map (valOf v))).getD a 0 +
            ((freeVars P.constKeys v).map fun p => ∑ c ∈ Finset.range p.2.length,
              jacOf r.keys (linJacs P.constKeys r.keys (D r (r.keys.map (valOf w)))) p.1 a c * dirOf cols.1 δ p.1 c).sum := by
          rw [hwd] at hmv ⊢; exact hmv
        rw [linErr_getD c4, linErr_getD c4, zero_add, zero_add] at hmv2
        have hmv' : lin1 (D r (r.keys.map (valOf w))) a (r.keys.map (valOf w)) = lin1 (D r (r.keys.map (valOf w))) a (r.keys.map (valOf v)) +
          (H *ᵥ δ) q := by rw [k2]; exact hmv2
        have h6 := g6 a c4
        rw [Pi.sub_apply, Pi.sub_apply, k1, (b2 i r s a q c1 c2 c3 c4).1]
        have : (E r (r.keys.map (valOf w))).getD a 0 - (E r (r.keys.map (valOf v))).getD a 0 - (H *ᵥ δ) q = (E r (r.keys.map (valOf w))).getD a 0 +
            lin1 (D r (r.keys.map (valOf w))) a (r.keys.map (valOf v)) - lin1 (D r (r.keys.map (valOf w))) a (r.keys.map (valOf w)) -
              (E r (r.keys.map (valOf v))).getD a 0 := by
          rw [hmv']; ring
        rw [this]
        refine h6.trans (mul_le_mul_of_nonneg_right ?_ (sq_nonneg _))
        have : (0 : ℝ) ≤ cols.2 := Nat.cast_nonneg _
        nlinarith
      refine (vecNorm_le_of (by positivity) hle).trans (le_of_eq ?_)
      ring
    · have hu0 := vecNorm_nonneg u
      have hle : ∀ q, |(H *ᵥ u - H0 *ᵥ u) q| ≤ B * (cols.2 + 1) * vecNorm δ * vecNorm u := by
        intro q
        obtain ⟨i, r, s, a, c1, c2, c3, c4⟩ := row_owner h hR hrows q
        have hr := List.mem_of_getElem? c1
        obtain ⟨hn, hx, hall⟩ := h.res r hr
        obtain ⟨g1, g2, g3, g4, g5, g6, g7⟩ := hall w _ hδ hnear
        obtain ⟨-, -, -, v4, v5, -, -⟩ := hall v 0 hR (Near.refl P.constKeys v)
        rw [Pi.sub_apply, (f2 i r s a q c1 c2 c3 c4).2 u, (b2 i r s a q c1 c2 c3 c4).2 u, list_sum_sub]
        refine (list_sum_abs_le _ _ (fun p => p.2.length) (B * vecNorm δ * vecNorm u) fun p hp => ?_).trans ?_
        · rw [← Finset.sum_sub_distrib]
          refine (Finset.abs_sum_le_sum_abs _ _).trans ?_
          have : ∀ c ∈ Finset.range p.2.length, |jacOf r.keys (linJacs P.constKeys r.keys (D r (r.keys.map (valOf w)))) p.1 a c * dirOf cols.1 u p.1 c -
              jacOf r.keys (linJacs P.constKeys r.keys (D r (r.keys.map (valOf v)))) p.1 a c * dirOf cols.1 u p.1 c| ≤ B * vecNorm δ * vecNorm u := by
            intro c hc
            rw [← sub_mul, abs_mul]
            refine mul_le_mul (jacOf_sub_le (n := 0) (by positivity) g4 v4 fun t J J' t1 t2 t3 => ?_) (dirOf_le _ _ _ _) (abs_nonneg _) (by positivity)
            refine g7 t J J' a c t2 t3 c4 ?_
            rw [(g5 t p.1 J t1 t2).2]
            unfold freeVars at hp
            unfold valOf
            rw [lookup_mem h.keys (List.mem_filter.1 hp).1]
            exact Finset.mem_range.1 hc
          refine (Finset.sum_le_sum this).trans ?_
          rw [Finset.sum_const, Finset.card_range, nsmul_eq_mul]
        · rw [← hsize]
          have : 0 ≤ B * vecNorm δ * vecNorm u := by positivity
          nlinarith
      refine (vecNorm_le_of (by positivity) hle).trans (le_of_eq ?_)
      ring

end

/-! ### The property -/

section
variable {P : Prob K (List ℝ)} {v : List (K × List ℝ)} {N : Residual K (List ℝ) → ℕ} {E : Residual K (List ℝ) → List (List ℝ) → List ℝ}
  {D : Residual K (List ℝ) → List (List ℝ) → List DMat} {R B : ℝ}

/-- The same problem for Gauss-Newton: the initial assignment, the number of iterations, the step tolerance. -/
def gnOf (P : Prob K (List ℝ)) (v0 : List (K × List ℝ)) (M : ℕ) (st : Option ℝ) : Prob K (List ℝ) :=
  { P with varsInit := v0, cfg := ⟨"GN", M, st, none, none, 0⟩ }

/-- The displacement between near assignments is small. -/
theorem near_displacement {Pv P1 : Prob K (List ℝ)} (hP : LinearProblem Pv) (hst : Pv.started vecVarOps = .ok P1) {v0 : List (K × List ℝ)} {ρ : ℝ}
    (h0 : Near Pv.constKeys Pv.varsInit v0 ρ) : ∃ δ : Vec P1.sizeState, moveAll Pv.constKeys P1.varSlices δ Pv.varsInit = v0 ∧ ∀ c, |δ c| ≤ ρ := by
  obtain ⟨δ, hδ⟩ := move_surjective hP hst h0.shape h0.const
  refine ⟨δ, hδ, fun c => ?_⟩
  obtain ⟨e1, e2, e3, e4, e5, e6, -, -⟩ := started_fields hst
  obtain ⟨-, -, huniq⟩ := C37_columns vecVarOps Pv P1 hst hP.keys
  have hfit := linear_fit hP hst
  rw [e3] at hfit
  obtain ⟨k, ⟨⟨x, hx⟩, s, hs1, hs2, hs3⟩, -⟩ := huniq c.1 c.2
  unfold freeVars at hx
  rw [List.mem_filter] at hx
  have hk : k ∉ Pv.constKeys := by simpa using hx.2
  have hl := lookup_mem hP.keys hx.1
  obtain ⟨s', f1, f2, f3⟩ := hfit (k, x) hx.1 hk
  simp only at f1 f2
  rw [hs1] at f1
  cases f1
  have hi : c.1 - s.start < x.length := by omega
  have hb : s.start + (c.1 - s.start) < P1.sizeState := by have := c.2; omega
  have q1 := moveAll_entry δ hl hk hs1 f2 f3 hi hb
  have hc : (⟨s.start + (c.1 - s.start), hb⟩ : Fin P1.sizeState) = c := Fin.ext (by simp; omega)
  rw [hc, hδ] at q1
  have := h0.close k (c.1 - s.start)
  rw [q1] at this
  have hv : valOf Pv.varsInit k = x := by unfold valOf; rw [hl]; rfl
  rw [hv, add_sub_cancel_left] at this
  exact this

theorem near_move {const : List K} {sl : List (K × Slice)} {n : ℕ} {v : List (K × List ℝ)} (hfit : SlicesFit const sl n v) (δ : Vec n) {ρ : ℝ}
    (h : vecNorm δ ≤ ρ) : Near const v (moveAll const sl δ v) ρ := by
  refine ⟨moveAll_shape δ v, fun k hk => moveAll_const δ hk, fun k i => ?_⟩
  have := entry_diff hfit δ 0 k i
  rw [moveAll_zero, sub_zero] at this
  exact this.trans h

/-- The property from the information matrix at the truth. -/
theorem local_core (h : SmoothNear P v N E D R B) (hE : ∀ r ∈ P.residuals, ∀ a, a < N r → (E r (r.keys.map (valOf v))).getD a 0 = 0) (hR : 0 < R) (hB : 0 ≤ B) {P1 : Prob K (List ℝ)}
    (h1 : Prob.started vecVarOps { P with varsInit := v } = .ok P1) {L : Lin} (hL : P1.linearize v = .ok L) (hd : L.A.det ≠ 0) (hn : 0 < L.n) :
    ∃ r κ : ℝ, 0 < r ∧ 0 < κ ∧ κ * r ≤ 1 / 2 ∧ ∀ (v0 : List (K × List ℝ)) (ρ : ℝ), Near P.constKeys v v0 ρ → ρ ≤ r →
      ∀ (M : ℕ) (st : Option ℝ), 0 < M → ∃ P', (gnOf P v0 M st).solve vecVarOps = .ok P' ∧
        (Near P.constKeys v P'.vars ((κ * ρ) ^ 2 ^ M) ∨ ∃ t ∈ st, Near P.constKeys v P'.vars (κ * t ^ 2)) := by
  obtain ⟨rows, hrows⟩ : ∃ rows, rows = rowSpans (P.residuals.map N) 0 := ⟨_, rfl⟩
  obtain ⟨cols, hcols⟩ : ∃ cols, cols = colSlices vecVarOps P.constKeys v 0 P.varSlices := ⟨_, rfl⟩
  rw [started_near h hR.le (Near.refl P.constKeys v), ← hrows, ← hcols] at h1
  obtain rfl := Except.ok.inj h1
  obtain ⟨e0, H0, hz, he0, -⟩ := smooth_nearTruth h hR.le hB hrows hcols
  obtain rfl := he0 hE
  rw [hL] at hz
  obtain rfl := Except.ok.inj hz
  replace hd : (H0ᵀ * H0).det ≠ 0 := hd
  replace hn : 0 < cols.2 := hn
  obtain ⟨l, hl, hlow⟩ := gram_lower hd
  have hlv := probAt_linear h hR.le (Near.refl P.constKeys v)
  have hsv := started_probAt h hR.le (Near.refl P.constKeys v)
  rw [← hrows, ← hcols] at hsv
  have hfit : SlicesFit P.constKeys cols.1 cols.2 v := linear_fit hlv hsv
  obtain ⟨C, hCd⟩ : ∃ C : ℝ, C = rows.2 * (B * (cols.2 + 1)) := ⟨_, rfl⟩
  have hC : 0 ≤ C := by rw [hCd]; positivity
  obtain ⟨σ, hσd⟩ : ∃ σ, σ = Real.sqrt l / 2 := ⟨_, rfl⟩
  have hσ : 0 < σ := by rw [hσd]; have := Real.sqrt_pos.2 hl; positivity
  obtain ⟨κ0, hκd⟩ : ∃ κ0 : ℝ, κ0 = 1 + C / σ := ⟨_, rfl⟩
  have hCσ : 0 ≤ C / σ := by positivity
  have hκ1 : 1 ≤ κ0 := by rw [hκd]; linarith
  have hκ0 : 0 < κ0 := by linarith
  have hκC : C ≤ κ0 * σ := by rw [hκd, add_mul, div_mul_cancel₀ _ hσ.ne']; nlinarith
  obtain ⟨r0, hr0d⟩ : ∃ r0 : ℝ, r0 = min R (min (1 / (2 * κ0)) (σ / (C + 1))) := ⟨_, rfl⟩
  have hr0 : 0 < r0 := by rw [hr0d]; exact lt_min hR (lt_min (by positivity) (by positivity))
  have hr0R : r0 ≤ R := by rw [hr0d]; exact min_le_left _ _
  have hκr : κ0 * r0 ≤ 1 / 2 := by
    have : r0 ≤ 1 / (2 * κ0) := by rw [hr0d]; exact (min_le_right _ _).trans (min_le_left _ _)
    refine (mul_le_mul_of_nonneg_left this hκ0.le).trans (le_of_eq ?_)
    field_simp
  have hCr : C * r0 ≤ σ := by
    have : r0 ≤ σ / (C + 1) := by rw [hr0d]; exact (min_le_right _ _).trans (min_le_right _ _)
    rw [le_div_iff₀ (by positivity)] at this
    nlinarith
  have hn1 : (1 : ℝ) ≤ cols.2 := by exact_mod_cast hn
  have hn0 : (0 : ℝ) < cols.2 := by linarith
  refine ⟨r0 / (4 * cols.2), 4 * κ0 * cols.2, by positivity, by positivity, ?_, ?_⟩
  · refine le_trans (le_of_eq ?_) hκr
    field_simp
  intro v0 ρ hv0 hρ M st hM
  have hsmall : cols.2 * ρ ≤ r0 := by
    rw [le_div_iff₀ (by positivity)] at hρ
    nlinarith
  -- the problem to be solved
  have hQ : SmoothNear (gnOf P v0 M st) v N E D R B := ⟨h.keys, h.losses, h.res⟩
  obtain ⟨δ, hδ, hδρ⟩ : ∃ δ : Vec cols.2, moveAll P.constKeys cols.1 δ v = v0 ∧ ∀ c, |δ c| ≤ ρ := near_displacement hlv hsv hv0
  have hρ0 : 0 ≤ ρ := (abs_nonneg _).trans (hδρ ⟨0, hn⟩)
  have hδn : vecNorm δ ≤ cols.2 * ρ := vecNorm_le_of hρ0 hδρ
  have hρR : ρ ≤ R := by nlinarith
  have hst := started_near hQ hρR hv0
  rw [show (gnOf P v0 M st).residuals = P.residuals from rfl, ← hrows, show colSlices vecVarOps (gnOf P v0 M st).constKeys v 0
    (gnOf P v0 M st).varSlices = cols from hcols.symm] at hst
  obtain ⟨e1, H1, hz1, he1, hnt⟩ := smooth_nearTruth hQ hR.le hB hrows hcols
  obtain rfl := he1 hE
  have hHH : H1 = H0 := by
    have e : (setUp (gnOf P v0 M st) rows cols v).linearize v = (setUp P rows cols v).linearize v :=
      linearize_cfg (P := setUp P rows cols v) ⟨"GN", M, st, none, none, 0⟩ v
    rw [e, hL] at hz1
    have := Except.ok.inj hz1
    injection this with _ _ _ e4 _
    exact e4.symm
  rw [hHH, ← hCd] at hnt
  have hnt0 := hnt v0
  obtain ⟨w, e, H, k1, k2, k3, k4⟩ := hnt0.lin δ (hδn.trans (hsmall.trans hr0R))
  have hw : w = v0 := by
    have e1 : correctStates vecVarOps P.constKeys cols.1 (List.ofFn δ) v = .ok (moveAll P.constKeys cols.1 δ v) := correct_vec δ hfit
    have e2 : correctStates vecVarOps P.constKeys cols.1 (List.ofFn δ) v = .ok w := k1
    rw [e1, hδ] at e2
    exact (Except.ok.inj e2).symm
  rw [hw] at k1 k2
  obtain ⟨s', δ', i1, i2, i3, i4, i5⟩ := newton_loop (κ := κ0) (r := r0) hnt0 hl hlow hC hn hr0R hκ0 (by rw [← hσd]; exact hκC) hκr
    (by rw [← hσd]; exact hCr) rfl rfl M ⟨v0, ⟨rows.2, cols.2, e, H, 1 / 2 * (e ⬝ᵥ e)⟩, [1 / 2 * (e ⬝ᵥ e)], none, none, 10, none, 0, 0⟩ δ
    ⟨k1, k2, rfl, Or.inl rfl⟩ (hδn.trans hsmall)
  obtain ⟨A, hA⟩ := Option.isSome_iff_exists.1 (i4 hM)
  have hvars : s'.vars = moveAll P.constKeys cols.1 δ' v := by
    have e1 : correctStates vecVarOps P.constKeys cols.1 (List.ofFn δ') v = .ok (moveAll P.constKeys cols.1 δ' v) := correct_vec δ' hfit
    have e2 : correctStates vecVarOps P.constKeys cols.1 (List.ofFn δ') v = .ok s'.vars := i2.vars
    rw [e1] at e2
    exact (Except.ok.inj e2).symm
  refine ⟨{ setUp (gnOf P v0 M st) rows cols v0 with vars := s'.vars, costHistory := (s'.lin.cost :: s'.costs).reverse, info := some A }, ?_, ?_⟩
  · unfold Prob.solve
    refine Eq.trans (congrArg (fun z => z >>= _) (hst : (gnOf P v0 M st).started vecVarOps = _)) ?_
    rw [ok_bindE]
    rw [if_pos (show (gnOf P v0 M st).cfg.solver = "GN" from rfl)]
    unfold solveGN
    refine Eq.trans (congrArg (fun z => z >>= _) (k2 : (setUp (gnOf P v0 M st) rows cols v0).linearize (setUp (gnOf P v0 M st) rows cols v0).vars = _)) ?_
    rw [ok_bindE]
    refine Eq.trans (congrArg (fun z => z >>= _) (i1 : iterLoop (gnStep vecVarOps (setUp (gnOf P v0 M st) rows cols v0))
      (setUp (gnOf P v0 M st) rows cols v0).cfg.maxIters _ = _)) ?_
    rw [ok_bindE]
    refine Eq.trans (congrArg (fun z => z >>= _) i2.lin) ?_
    rw [ok_bindE, hA]
  · show Near P.constKeys v s'.vars _ ∨ ∃ t ∈ st, Near P.constKeys v s'.vars _
    rw [hvars]
    have hδ'0 := vecNorm_nonneg δ'
    have up : vecNorm δ' ≤ κ0 * vecNorm δ' := by nlinarith
    rcases i5 with i5 | ⟨t, ht, i5⟩
    · left
      refine near_move hfit δ' (up.trans (i5.trans (pow_le_pow_left₀ (mul_nonneg hκ0.le (vecNorm_nonneg _)) ?_ _)))
      have := mul_le_mul_of_nonneg_left hδn hκ0.le
      have h3 : 0 ≤ κ0 * (cols.2 * ρ) := by positivity
      have h4 : 4 * κ0 * cols.2 * ρ = 4 * (κ0 * (cols.2 * ρ)) := by ring
      linarith
    · right
      refine ⟨t, ht, near_move hfit δ' (i5.trans ?_)⟩
      have : 0 ≤ 4 * κ0 * t ^ 2 := by positivity
      nlinarith

end

/-- **C143.** Let the residuals of a problem with vector variables and L2 losses be smooth near an assignment `v` and vanish there
(perfect data), and let Gauss-Newton succeed when started at `v`. Then there is a radius `r > 0` such that from every initial assignment with
all components within `ρ ≤ r` of `v`, for every number of iterations `M ≥ 1`, Gauss-Newton succeeds, and either all components of its result
are within `(κρ)^(2^M)` of `v`, with `κr ≤ 1/2`, or it stopped early because of the step tolerance `t`, within `κt²` of `v`. -/
theorem C143_local (P Pt : Prob K (List ℝ)) (v : List (K × List ℝ)) (N : Residual K (List ℝ) → ℕ)
    (E : Residual K (List ℝ) → List (List ℝ) → List ℝ) (D : Residual K (List ℝ) → List (List ℝ) → List DMat) (R B : ℝ)
    (h : SmoothNear P v N E D R B)
    (hE : ∀ r ∈ P.residuals, ∀ a, a < N r → (E r (r.keys.map (valOf v))).getD a 0 = 0) (hR : 0 < R) (hB : 0 ≤ B) (M0 : ℕ) (hM0 : 0 < M0) (st0 : Option ℝ)
    (ht : (gnOf P v M0 st0).solve vecVarOps = .ok Pt) :
    ∃ r κ : ℝ, 0 < r ∧ 0 < κ ∧ κ * r ≤ 1 / 2 ∧ ∀ (v0 : List (K × List ℝ)) (ρ : ℝ), Near P.constKeys v v0 ρ → ρ ≤ r →
      ∀ (M : ℕ) (st : Option ℝ), 0 < M → ∃ P', (gnOf P v0 M st).solve vecVarOps = .ok P' ∧
        (Near P.constKeys v P'.vars ((κ * ρ) ^ 2 ^ M) ∨ ∃ t ∈ st, Near P.constKeys v P'.vars (κ * t ^ 2)) := by
  obtain ⟨P1, hP1, h'⟩ := solve_GN rfl ht
  have hn := gn_dof_pos (P := gnOf P v M0 st0) rfl hM0 ht hP1
  obtain ⟨e1, e2, e3, e4, e5, e6, -, -⟩ := started_fields hP1
  unfold solveGN at h'
  obtain ⟨L, h2, h'⟩ := bind_ok h'
  obtain ⟨s, h3, h'⟩ := bind_ok h'
  obtain ⟨M', hM'⟩ : ∃ M', P1.cfg.maxIters = M' + 1 := ⟨M0 - 1, by rw [e1]; show M0 = _; omega⟩
  rw [hM'] at h3
  unfold iterLoop at h3
  obtain ⟨q, hq, h3⟩ := bind_ok h3
  unfold gnStep at hq
  rw [if_neg (by simp [isConverged])] at hq
  obtain ⟨δ, g1, hq⟩ := bind_ok hq
  have hd := (spsolve_ok g1).1
  have hL : P1.linearize v = .ok L := by rw [e6] at h2; exact h2
  have hk := local_core (P := gnOf P v M0 st0) (N := N) (E := E) (D := D) (R := R) (B := B) ⟨h.keys, h.losses, h.res⟩ hE hR hB hP1 hL hd
    (by rw [(linearize_shape hL).2]; exact hn)
  exact hk

/-- **C143.** In the limit: from every initial assignment near enough to the truth, the result of `M` iterations (no tolerances) tends to
the truth. -/
theorem C143_limit (P Pt : Prob K (List ℝ)) (v : List (K × List ℝ)) (N : Residual K (List ℝ) → ℕ)
    (E : Residual K (List ℝ) → List (List ℝ) → List ℝ) (D : Residual K (List ℝ) → List (List ℝ) → List DMat) (R B : ℝ)
    (h : SmoothNear P v N E D R B)
    (hE : ∀ r ∈ P.residuals, ∀ a, a < N r → (E r (r.keys.map (valOf v))).getD a 0 = 0) (hR : 0 < R) (hB : 0 ≤ B) (M0 : ℕ) (hM0 : 0 < M0) (st0 : Option ℝ)
    (ht : (gnOf P v M0 st0).solve vecVarOps = .ok Pt) :
    ∃ r : ℝ, 0 < r ∧ ∀ v0, Near P.constKeys v v0 r → ∀ ε : ℝ, 0 < ε → ∃ M1 : ℕ, ∀ M, M1 ≤ M →
      ∃ P', (gnOf P v0 M none).solve vecVarOps = .ok P' ∧ Near P.constKeys v P'.vars ε := by
  obtain ⟨r, κ, hr, hκ, hκr, hall⟩ := C143_local P Pt v N E D R B h hE hR hB M0 hM0 st0 ht
  refine ⟨r, hr, fun v0 hv0 ε hε => ?_⟩
  obtain ⟨M1, hM1⟩ := exists_pow_lt_of_lt_one hε (show (1 / 2 : ℝ) < 1 by norm_num)
  refine ⟨M1 + 1, fun M hM => ?_⟩
  obtain ⟨P', k1, k2⟩ := hall v0 r hv0 le_rfl M none (by omega)
  refine ⟨P', k1, ?_⟩
  rcases k2 with k2 | ⟨t, ht, -⟩
  · refine ⟨k2.shape, k2.const, fun k i => (k2.close k i).trans ?_⟩
    have h0 : 0 ≤ κ * r := by positivity
    refine (pow_le_pow_left₀ h0 hκr _).trans (le_trans ?_ hM1.le)
    exact pow_le_pow_of_le_one (by norm_num) (by norm_num) ((by omega : M1 ≤ M).trans Nat.lt_two_pow_self.le)
  · cases ht

/-! ### An example: the square root of 2 -/

/-- The residual `x² - 2`. -/
noncomputable def sqRes : Residual ℕ (List ℝ) where
  keys := [0]
  error xs := .ok [(xs.getD 0 []).getD 0 0 ^ 2 - 2]
  jacobians xs flags := .ok (List.zipWith (fun J f => if f then some J else none) [⟨1, 1, fun _ _ => 2 * (xs.getD 0 []).getD 0 0⟩] flags)

noncomputable def exSq : Prob ℕ (List ℝ) where
  cfg := ⟨"GN", 5, none, none, none, 1⟩
  varsInit := []
  constKeys := []
  residuals := [sqRes]
  losses := [l2Loss]
  vars := []
  varSlices := []
  resSlices := []
  sizeErr := 0
  sizeState := 0
  costHistory := []
  info := none
  cov := none

theorem exSq_smooth : SmoothNear exSq [(0, [Real.sqrt 2])] (fun _ => 1) (fun _ xs => [(xs.getD 0 []).getD 0 0 ^ 2 - 2])
    (fun _ xs => [⟨1, 1, fun _ _ => 2 * (xs.getD 0 []).getD 0 0⟩]) 1 2 where
  keys := by simp
  losses := rfl
  res := by
    intro r hr
    simp only [exSq, List.mem_singleton] at hr
    subst hr
    refine ⟨by simp [sqRes], ?_, ?_⟩
    · intro k hk
      simp only [sqRes, List.mem_singleton] at hk
      subst hk
      exact ⟨_, rfl⟩
    · intro w ρ hρ hw
      have hs : Real.sqrt 2 ^ 2 = 2 := Real.sq_sqrt (by norm_num)
      have hc := hw.close 0 0
      have hv : valOf [((0 : ℕ), [Real.sqrt 2])] 0 = [Real.sqrt 2] := rfl
      rw [hv] at hc
      obtain ⟨x, hx⟩ : ∃ x, x = (valOf w 0).getD 0 0 := ⟨_, rfl⟩
      rw [← hx] at hc
      replace hc : |x - Real.sqrt 2| ≤ ρ := hc
      refine ⟨rfl, rfl, rfl, rfl, ?_, ?_, ?_⟩
      · intro t k J h1 h2
        cases t with
        | succ t => simp [sqRes] at h1
        | zero =>
          simp only [sqRes, List.getElem?_cons_zero, Option.some.injEq] at h1 h2
          subst h1 h2
          exact ⟨rfl, rfl⟩
      · intro a ha
        obtain rfl : a = 0 := by omega
        have : ([(valOf w 0).getD 0 0 ^ 2 - 2] : List ℝ).getD 0 0 + lin1 [⟨1, 1, fun _ _ => 2 * (valOf w 0).getD 0 0⟩] 0 [[Real.sqrt 2]] -
            lin1 [⟨1, 1, fun _ _ => 2 * (valOf w 0).getD 0 0⟩] 0 [valOf w 0] - ([Real.sqrt 2 ^ 2 - 2] : List ℝ).getD 0 0 = -(x - Real.sqrt 2) ^ 2 := by
          rw [← hx]
          simp only [lin1, List.zip_cons_cons, List.zip_nil_right, List.map_cons, List.map_nil, List.sum_cons, List.sum_nil, Finset.sum_range_one]
          rw [← hx]
          simp only [List.getD_cons_zero]
          ring
        have h2 : |(-(x - Real.sqrt 2) ^ 2)| ≤ 2 * ρ ^ 2 := by
          rw [abs_neg, abs_of_nonneg (sq_nonneg _), ← sq_abs]
          have := pow_le_pow_left₀ (abs_nonneg _) hc 2
          nlinarith [sq_nonneg ρ]
        rw [← this] at h2
        exact h2
      · intro t J J' a c h1 h2 ha hcc
        cases t with
        | succ t => simp at h1
        | zero =>
          simp only [List.getElem?_cons_zero, Option.some.injEq] at h1 h2
          subst h1 h2
          show |2 * (valOf w 0).getD 0 0 - 2 * Real.sqrt 2| ≤ 2 * ρ
          rw [← hx, ← mul_sub, abs_mul, abs_of_pos (by norm_num : (0 : ℝ) < 2)]
          linarith

theorem exSq_zero : ∀ r ∈ exSq.residuals, ∀ a, a < 1 →
    ([((r.keys.map (valOf [(0, [Real.sqrt 2])])).getD 0 []).getD 0 0 ^ 2 - 2] : List ℝ).getD a 0 = 0 := by
  intro r hr a ha
  simp only [exSq, List.mem_singleton] at hr
  subst hr
  obtain rfl : a = 0 := by omega
  have hs : Real.sqrt 2 ^ 2 = 2 := Real.sq_sqrt (by norm_num)
  show Real.sqrt 2 ^ 2 - 2 = 0
  linarith

/-- Gauss-Newton succeeds from the truth. -/
theorem exSq_truth : ∃ Pt, (gnOf exSq [(0, [Real.sqrt 2])] 1 none).solve vecVarOps = .ok Pt := by
  have h1 : Prob.started vecVarOps { exSq with varsInit := [(0, [Real.sqrt 2])] } = .ok (setUp exSq ([⟨0, 1⟩], 1) ([(0, ⟨0, 1⟩)], 1) [(0, [Real.sqrt 2])]) :=
    started_near exSq_smooth zero_le_one (Near.refl _ _)
  have h2 : (setUp exSq ([⟨0, 1⟩], 1) ([(0, ⟨0, 1⟩)], 1) [(0, [Real.sqrt 2])]).linearize [(0, [Real.sqrt 2])] =
      .ok ⟨1, 1, fun _ => 0, fun _ _ => 2 * Real.sqrt 2, 0⟩ := by
    simp [Prob.linearize, setUp, exSq, sqRes, asmLoop, lookupAll, dictGet, bind, Except.bind, List.lookup, pure,
      Except.pure, pyGet, setSeg, Slice.len, placeJacs, DMat.setBlock, DMat.scale, DMat.zeros, l2Loss, listNorm]
  obtain ⟨r, κ, hr, hκ, -, hall⟩ := local_core exSq_smooth exSq_zero one_pos zero_le_two h1 h2 (by
    rw [Matrix.det_fin_one]
    show (∑ i : Fin 1, (2 * Real.sqrt 2) * (2 * Real.sqrt 2)) ≠ 0
    simp) one_pos
  obtain ⟨P', h, -⟩ := hall [(0, [Real.sqrt 2])] 0 (Near.refl _ _) hr.le 1 none one_pos
  exact ⟨P', h⟩

/-- Gauss-Newton for `x² - 2` converges to `√2` from every initial value near it. -/
example : ∃ r : ℝ, 0 < r ∧ ∀ v0, Near [] [(0, [Real.sqrt 2])] v0 r → ∀ ε : ℝ, 0 < ε → ∃ M1 : ℕ, ∀ M, M1 ≤ M →
    ∃ P', (gnOf exSq v0 M none).solve vecVarOps = .ok P' ∧ Near [] [((0 : ℕ), [Real.sqrt 2])] P'.vars ε := by
  obtain ⟨Pt, ht⟩ := exSq_truth
  exact C143_limit exSq Pt _ _ _ _ 1 2 exSq_smooth exSq_zero one_pos zero_le_two 1 one_pos none ht

end Verif
