import Verif.Props.Chain
import Verif.Lemmas.Still

/-!
C142: Levenberg-Marquardt on linear problems.
-/

set_option linter.unusedVariables false
set_option linter.unusedSectionVars false
set_option linter.unusedSimpArgs false

namespace Verif

open Matrix

variable {K S : Type} [DecidableEq K]

/-! ### One damped step -/

/-- `vᵀ A v` -/
noncomputable def energy {n : ℕ} (A : Mat n n) (v : Vec n) : ℝ := v ⬝ᵥ A *ᵥ v

theorem dot_symm_mul {n : ℕ} {A : Mat n n} (hA : Aᵀ = A) (u v : Vec n) : u ⬝ᵥ A *ᵥ v = v ⬝ᵥ A *ᵥ u := by
  rw [dotProduct_mulVec, ← mulVec_transpose, hA, dotProduct_comm]

/-- A damped step `d` from the displacement `ζ` to the minimum. -/
theorem damped_step {n : ℕ} {A : Mat n n} (hA : Aᵀ = A) {l μ : ℝ} (hl : 0 < l) (hlow : ∀ v : Vec n, l * vecNorm v ^ 2 ≤ v ⬝ᵥ A *ᵥ v)
    (hμ : 0 ≤ μ) {ζ d : Vec n} (hd : (A + μ • (1 : Mat n n)) *ᵥ d = -(A *ᵥ ζ)) :
    1 / 2 * energy A ζ - 1 / 2 * energy A (ζ + d) = gainDen d (A *ᵥ ζ) μ ∧ (d ≠ 0 → 0 < gainDen d (A *ᵥ ζ) μ) ∧ (d = 0 → ζ = 0) ∧
      (l + μ) ^ 2 * energy A (ζ + d) ≤ μ ^ 2 * energy A ζ ∧ vecNorm ζ ≤ (1 + μ / l) * vecNorm d := by
  have hu : IsUnit A.det := isUnit_iff_ne_zero.2 (det_of_lower hl hlow)
  have h1 : A *ᵥ d + μ • d = -(A *ᵥ ζ) := by
    rw [← hd, add_mulVec, smul_mulVec, one_mulVec]
  have hpos : ∀ v : Vec n, 0 ≤ v ⬝ᵥ A *ᵥ v := fun v => le_trans (mul_nonneg hl.le (sq_nonneg _)) (hlow v)
  have e1 : μ • d - A *ᵥ ζ = (2 * μ) • d + A *ᵥ d := by
    rw [sub_eq_add_neg, ← h1, two_mul, add_smul]; abel
  have hden : gainDen d (A *ᵥ ζ) μ = μ * (d ⬝ᵥ d) + 1 / 2 * (d ⬝ᵥ A *ᵥ d) := by
    unfold gainDen
    rw [e1, dotProduct_add, dotProduct_smul, smul_eq_mul]; ring
  refine ⟨?_, ?_, ?_, ?_, ?_⟩
  · have e2 : d ⬝ᵥ A *ᵥ ζ = -(d ⬝ᵥ A *ᵥ d) - μ * (d ⬝ᵥ d) := by
      have := congrArg (fun w => d ⬝ᵥ w) h1
      simp only [dotProduct_add, dotProduct_smul, dotProduct_neg, smul_eq_mul] at this
      linarith
    have e3 : energy A (ζ + d) = energy A ζ + 2 * (d ⬝ᵥ A *ᵥ ζ) + d ⬝ᵥ A *ᵥ d := by
      unfold energy
      rw [mulVec_add, dotProduct_add, add_dotProduct, add_dotProduct, dot_symm_mul hA ζ d]; ring
    rw [hden, e3, e2]; ring
  · intro hne
    rw [hden]
    have hn : 0 < vecNorm d ^ 2 := lt_of_le_of_ne (sq_nonneg _) fun h => hne (vecNorm_zero_iff_zero (pow_eq_zero_iff two_ne_zero |>.1 h.symm))
    have a1 := hlow d
    have a2 : 0 ≤ d ⬝ᵥ d := dot_self_nonneg d
    have a3 := mul_pos hl hn
    have a4 := mul_nonneg hμ a2
    linarith
  · intro h0
    rw [h0, mulVec_zero, smul_zero, add_zero] at h1
    have h2 : A *ᵥ ζ = 0 := by rw [← neg_eq_zero]; exact h1.symm
    have := congrArg (fun w => A⁻¹ *ᵥ w) h2
    simpa [mulVec_mulVec, nonsing_inv_mul _ hu] using this
  · obtain ⟨w, hw⟩ : ∃ w, w = ζ + d := ⟨_, rfl⟩
    have e2 : μ • ζ = A *ᵥ w + μ • w := by
      rw [hw, mulVec_add, smul_add]
      have : A *ᵥ d + μ • d + A *ᵥ ζ = 0 := by rw [h1]; abel
      calc μ • ζ = μ • ζ + 0 := by rw [add_zero]
        _ = μ • ζ + (A *ᵥ d + μ • d + A *ᵥ ζ) := by rw [this]
        _ = _ := by abel
    have e3 : μ ^ 2 * energy A ζ = energy A (μ • ζ) := by
      unfold energy
      rw [mulVec_smul, smul_dotProduct, dotProduct_smul, smul_eq_mul, smul_eq_mul]; ring
    have e4 : energy A (A *ᵥ w + μ • w) = (A *ᵥ w) ⬝ᵥ A *ᵥ (A *ᵥ w) + 2 * μ * ((A *ᵥ w) ⬝ᵥ (A *ᵥ w)) + μ ^ 2 * energy A w := by
      unfold energy
      rw [mulVec_add, mulVec_smul, dotProduct_add, add_dotProduct, add_dotProduct, smul_dotProduct, dotProduct_smul, smul_dotProduct,
        dotProduct_smul, dot_symm_mul hA w (A *ᵥ w)]
      simp only [smul_eq_mul]; ring
    rw [← hw, e3, e2, e4]
    -- `l wᵀAw ≤ |Aw|²`
    have b1 : l * energy A w ≤ (A *ᵥ w) ⬝ᵥ (A *ᵥ w) := by
      have c1 := hlow w
      have c2 := (abs_le.1 (dot_le_norm w (A *ᵥ w))).2
      have c3 := vecNorm_sq (A *ᵥ w)
      have c4 := vecNorm_nonneg w
      have c5 := vecNorm_nonneg (A *ᵥ w)
      have c6 : l * vecNorm w ≤ vecNorm (A *ᵥ w) := by
        rcases c4.eq_or_lt with h0 | h0
        · rw [← h0, mul_zero]; exact c5
        · nlinarith
      unfold energy
      rw [← c3]
      nlinarith
    have b2 : l * ((A *ᵥ w) ⬝ᵥ (A *ᵥ w)) ≤ (A *ᵥ w) ⬝ᵥ A *ᵥ (A *ᵥ w) := by rw [← vecNorm_sq]; exact hlow _
    have b3 := mul_le_mul_of_nonneg_left b1 hl.le
    have b4 := mul_le_mul_of_nonneg_left b1 (mul_nonneg zero_le_two hμ)
    nlinarith
  · have e2 : ζ = -d - μ • (A⁻¹ *ᵥ d) := by
      have := congrArg (fun w => A⁻¹ *ᵥ w) h1
      simp only [mulVec_add, mulVec_smul, mulVec_neg, mulVec_mulVec, nonsing_inv_mul _ hu, one_mulVec] at this
      rw [← neg_eq_iff_eq_neg.2 this]; abel
    have b1 := inv_norm_le hl hlow d
    have b2 : vecNorm ζ ≤ vecNorm d + μ * vecNorm (A⁻¹ *ᵥ d) := by
      have : ζ = -(d + μ • (A⁻¹ *ᵥ d)) := by conv_lhs => rw [e2]
                                             abel
      rw [this, vecNorm_neg]
      refine (vecNorm_add _ _).trans (add_le_add_right (le_of_eq ?_) _)
      have h2 : vecNorm (μ • (A⁻¹ *ᵥ d)) ^ 2 = (μ * vecNorm (A⁻¹ *ᵥ d)) ^ 2 := by
        rw [mul_pow, vecNorm_sq, vecNorm_sq, smul_dotProduct, dotProduct_smul, smul_eq_mul, smul_eq_mul]; ring
      exact (pow_left_inj₀ (vecNorm_nonneg _) (mul_nonneg hμ (vecNorm_nonneg _)) two_ne_zero).1 h2
    have b3 : vecNorm (A⁻¹ *ᵥ d) ≤ vecNorm d / l := by rw [le_div_iff₀ hl]; linarith
    have b4 := mul_le_mul_of_nonneg_left b3 hμ
    calc vecNorm ζ ≤ vecNorm d + μ * (vecNorm d / l) := b2.trans (by linarith)
      _ = _ := by ring

/-! ### One pass of the loop -/

/-- The linearization of an affine problem at displacement `ζ` from its minimum. -/
noncomputable def linAt {m n : ℕ} (e : Vec m) (H : Mat m n) (ζ : Vec n) : Lin :=
  ⟨m, n, e + H *ᵥ (gnDelta e H + ζ), H, 1 / 2 * ((e + H *ᵥ (gnDelta e H + ζ)) ⬝ᵥ (e + H *ᵥ (gnDelta e H + ζ)))⟩

theorem linAt_cost {m n : ℕ} {e : Vec m} {H : Mat m n} (hd : (Hᵀ * H).det ≠ 0) (ζ : Vec n) :
    (linAt e H ζ).cost = (linAt e H 0).cost + 1 / 2 * energy (Hᵀ * H) ζ := by
  have h := gnDelta_pythagoras e H hd (gnDelta e H + ζ)
  rw [add_sub_cancel_left] at h
  show 1 / 2 * _ = 1 / 2 * ((e + H *ᵥ (gnDelta e H + 0)) ⬝ᵥ (e + H *ᵥ (gnDelta e H + 0))) + _
  rw [h, add_zero]
  unfold energy
  rw [gram_dot_eq, vecNorm_sq]
  ring

theorem linAt_b {m n : ℕ} {e : Vec m} {H : Mat m n} (hd : (Hᵀ * H).det ≠ 0) (ζ : Vec n) : (linAt e H ζ).b = (Hᵀ * H) *ᵥ ζ := by
  have h := gnDelta_normal e H hd
  show Hᵀ *ᵥ (e + H *ᵥ (gnDelta e H + ζ)) = _
  rw [mulVec_add H, ← add_assoc, mulVec_add, h, zero_add, mulVec_mulVec]

theorem gain_one {x : ℝ} (hx : 0 < x) : gainPositive x x = true ∧ gainFactor x x = 1 / 3 := by
  unfold gainPositive gainFactor
  rw [if_neg hx.ne', if_neg hx.ne', div_self hx.ne']
  constructor
  · exact decide_eq_true one_pos
  · norm_num

/-- A state of the loop at displacement `ζ`. -/
structure LmState (o : VarOps S) (P : Prob K S) (v0 : List (K × S)) {m n : ℕ} (e : Vec m) (H : Mat m n) (ζ : Vec n) (s : LoopState K S) : Prop where
  vars : correctStates o P.constKeys P.varSlices (List.ofFn (gnDelta e H + ζ)) v0 = .ok s.vars
  lin : s.lin = linAt e H ζ
  info : s.info = some ⟨n, Hᵀ * H⟩
  head : s.costs.headD 0 = s.lin.cost
  mu : 0 ≤ s.mu
  nu : 0 ≤ s.nu

theorem bind3_ok {A B C D : Type} {a : Except Err A} {f : A → Except Err B} {g : B → Except Err C} {k : A → B → C → D} {x : A} {y : B} {z : C}
    (h1 : a = .ok x) (h2 : f x = .ok y) (h3 : g y = .ok z) :
    (do let v ← a; let L ← f v; let w ← g L; return k v L w : Except Err D) = .ok (k x y z) := by
  rw [h1, ok_bindE, h2, ok_bindE, h3]
  rfl

theorem lm_pass {o : VarOps S} {P : Prob K S} {v0 : List (K × S)} {m n : ℕ} {e : Vec m} {H : Mat m n} (ha : AffineProb o P v0 m n e H)
    {l : ℝ} (hl : 0 < l) (hlow : ∀ v : Vec n, l * vecNorm v ^ 2 ≤ v ⬝ᵥ (Hᵀ * H) *ᵥ v) (hn : 0 < n)
    (hok : ∀ δ : Vec n, ∃ v, correctStates o P.constKeys P.varSlices (List.ofFn δ) v0 = .ok v) (hf : P.cfg.ftol = none) (hg : P.cfg.gradTol = none)
    {s : LoopState K S} {ζ : Vec n} (hs : LmState o P v0 e H ζ s) :
    ∃ r, lmStep o P s = .ok r ∧
      ((ζ = 0 ∧ LmState o P v0 e H 0 r.1 ∧ r.1.costs = s.costs) ∨
       (r.2 = true ∧ LmState o P v0 e H ζ r.1 ∧ r.1.costs = s.costs ∧ ∃ t ∈ P.cfg.stepTol, vecNorm ζ ≤ (1 + s.mu / l) * t) ∨
       (r.2 = false ∧ ∃ ζ', LmState o P v0 e H ζ' r.1 ∧ r.1.costs = (linAt e H ζ').cost :: s.costs ∧ r.1.mu = s.mu / 3 ∧
          (l + s.mu) ^ 2 * energy (Hᵀ * H) ζ' ≤ s.mu ^ 2 * energy (Hᵀ * H) ζ)) := by
  have hd : (Hᵀ * H).det ≠ 0 := det_of_lower hl hlow
  have hA : (Hᵀ * H)ᵀ = Hᵀ * H := by rw [transpose_mul, transpose_transpose]
  obtain ⟨h1, h2, h3, h4, h5, h6⟩ := hs
  obtain ⟨sv, sl, sc, sd, sg, sx, si, smu, snu⟩ := s
  simp only at h1 h2 h3 h4 h5 h6
  subst h2 h3
  -- the damped system
  have hlowμ : ∀ v : Vec n, l * vecNorm v ^ 2 ≤ v ⬝ᵥ ((Hᵀ * H) + smu • (1 : Mat n n)) *ᵥ v := by
    intro v
    rw [add_mulVec, smul_mulVec, one_mulVec, dotProduct_add, dotProduct_smul, smul_eq_mul]
    have := mul_nonneg h5 (dot_self_nonneg v)
    linarith [hlow v]
  have hdμ := det_of_lower hl hlowμ
  obtain ⟨d, hdd⟩ : ∃ d, d = ((Hᵀ * H) + smu • (1 : Mat n n))⁻¹ *ᵥ (-((Hᵀ * H) *ᵥ ζ)) := ⟨_, rfl⟩
  have hds : ((Hᵀ * H) + smu • (1 : Mat n n)) *ᵥ d = -((Hᵀ * H) *ᵥ ζ) := by
    rw [hdd, mulVec_mulVec, mul_nonsing_inv _ (isUnit_iff_ne_zero.2 hdμ), one_mulVec]
  obtain ⟨p1, p2, p3, p4, p5⟩ := damped_step hA hl hlow h5 hds
  have hsp : spsolve ((linAt e H ζ).A + smu • (1 : Mat _ _)) (linAt e H ζ).b = .ok d := by
    rw [linAt_b hd, hdd]
    exact if_neg hdμ
  -- the trial point
  obtain ⟨vt, hvt⟩ := hok (gnDelta e H + (ζ + d))
  have hvt' : correctStates o P.constKeys P.varSlices (List.ofFn d) sv = .ok vt := by
    rw [ha.add _ d sv h1, add_assoc]; exact hvt
  have hlt : P.linearize vt = .ok (linAt e H (ζ + d)) := ha.lin _ vt hvt
  obtain ⟨g, hgn⟩ : ∃ g, (linAt e H (ζ + d)).gradNorm = .ok g := by
    unfold Lin.gradNorm npMax
    exact ⟨_, dif_pos hn⟩
  unfold lmStep
  simp only [hsp]
  by_cases hconv : isConverged P.cfg sd (sc.headD 0) (vecNorm d) sg = true
  · refine ⟨(⟨sv, linAt e H ζ, sc, sd, sg, vecNorm d, some ⟨n, Hᵀ * H⟩, smu, snu⟩, true), ?_, ?_⟩
    · show (if isConverged P.cfg sd (sc.headD 0) (vecNorm d) sg = true then _ else _) = _
      rw [if_pos hconv]
      rfl
    · by_cases hz : ζ = 0
      · subst hz
        exact Or.inl ⟨rfl, ⟨h1, rfl, rfl, h4, h5, h6⟩, rfl⟩
      · refine Or.inr (Or.inl ⟨rfl, ⟨h1, rfl, rfl, h4, h5, h6⟩, rfl, ?_⟩)
        unfold isConverged at hconv
        cases sd with
        | none => simp at hconv
        | some dc =>
          simp only [decide_eq_true_eq, hf, hg] at hconv
          rcases hconv with ⟨t, ht, hlt'⟩ | ⟨t, ht, -⟩ | hc | hx | ⟨t, ht, -⟩
          · exact ⟨t, ht, p5.trans (mul_le_mul_of_nonneg_left hlt'.le (by have := div_nonneg h5 hl.le; linarith))⟩
          · simp at ht
          · exfalso
            rw [h4, linAt_cost hd] at hc
            have q1 : 0 ≤ (linAt e H 0).cost := mul_nonneg (by norm_num) (dot_self_nonneg _)
            have q2 := hlow ζ
            have q3 : 0 < l * vecNorm ζ ^ 2 := mul_pos hl (lt_of_le_of_ne (sq_nonneg _) fun h => hz (vecNorm_zero_iff_zero (pow_eq_zero_iff two_ne_zero |>.1 h.symm)))
            unfold energy at hc
            linarith
          · exact absurd (p3 (vecNorm_zero_iff_zero hx)) hz
          · simp at ht
  · have hstep : (lmUpdate (⟨sv, linAt e H ζ, sc, sd, sg, sx, some ⟨n, Hᵀ * H⟩, smu, snu⟩ : LoopState K S) (vecNorm d) vt (linAt e H (ζ + d))
        (gainDen d (linAt e H ζ).b smu) g, false) = (lmUpdate (⟨sv, linAt e H ζ, sc, sd, sg, sx, some ⟨n, Hᵀ * H⟩, smu, snu⟩ : LoopState K S)
        (vecNorm d) vt (linAt e H (ζ + d)) (gainDen d ((Hᵀ * H) *ᵥ ζ) smu) g, false) := by rw [linAt_b hd]
    refine ⟨(lmUpdate ⟨sv, linAt e H ζ, sc, sd, sg, sx, some ⟨n, Hᵀ * H⟩, smu, snu⟩ (vecNorm d) vt (linAt e H (ζ + d))
        (gainDen d ((Hᵀ * H) *ᵥ ζ) smu) g, false), ?_, ?_⟩
    · rw [← hstep]
      show (if isConverged P.cfg sd (sc.headD 0) (vecNorm d) sg = true then _ else _) = _
      rw [if_neg hconv]
      exact bind3_ok (f := fun v => P.linearize v) (g := fun L => L.gradNorm) hvt' hlt hgn
    · have hnum : sc.headD 0 - (linAt e H (ζ + d)).cost = gainDen d ((Hᵀ * H) *ᵥ ζ) smu := by
        rw [h4, linAt_cost hd ζ, linAt_cost hd (ζ + d), ← p1]; ring
      by_cases hz : d = 0
      · have hz' := p3 hz
        subst hz'
        refine Or.inl ⟨rfl, ?_, ?_⟩
        all_goals
          unfold lmUpdate
          simp only [hnum]
          have h0 : gainDen d ((Hᵀ * H) *ᵥ 0) smu = 0 := by rw [hz]; unfold gainDen; rw [zero_dotProduct, mul_zero]
          have hno : gainPositive (gainDen d ((Hᵀ * H) *ᵥ 0) smu) (gainDen d ((Hᵀ * H) *ᵥ 0) smu) = false := by
            rw [h0]; unfold gainPositive; rw [if_pos rfl]; simp
          rw [hno]
          simp only [Bool.false_eq_true, if_false]
        exact ⟨h1, rfl, rfl, h4, mul_nonneg h5 h6, mul_nonneg zero_le_two h6⟩
      · obtain ⟨g1, g2⟩ := gain_one (p2 hz)
        refine Or.inr (Or.inr ⟨rfl, ζ + d, ?_, ?_, ?_, p4⟩)
        all_goals
          unfold lmUpdate
          simp only [hnum]
          simp only [g1, g2, if_true]
        · exact ⟨hvt, rfl, rfl, rfl, mul_nonneg h5 (by norm_num), zero_le_two⟩
        · ring

/-! ### The loop -/

/-- The factor by which pass `i` shrinks the distance to the minimum; `r` is the ratio of the initial damping and the least curvature. -/
noncomputable def lmRate (r : ℝ) (i : ℕ) : ℝ := r / 3 ^ i / (1 + r / 3 ^ i)

theorem lmRate_nonneg {r : ℝ} (hr : 0 ≤ r) (i : ℕ) : 0 ≤ lmRate r i := by unfold lmRate; positivity

theorem lmRate_le {r : ℝ} (hr : 0 ≤ r) (i : ℕ) : lmRate r i ≤ r / (1 + r) := by
  unfold lmRate
  rw [div_le_div_iff₀ (by positivity) (by positivity)]
  have : r / 3 ^ i ≤ r := div_le_self hr (one_le_pow₀ (by norm_num))
  nlinarith

/-- Each entry of a list of costs (latest first) is, above `cs`, at most `lmRate²` times the one before it. -/
def Contracts (r cs : ℝ) : List ℝ → Prop
  | [] => True
  | [_] => True
  | c' :: c :: l => c' - cs ≤ lmRate r l.length ^ 2 * (c - cs) ∧ Contracts r cs (c :: l)

theorem contracts_bound {r cs : ℝ} (hr : 0 ≤ r) : ∀ {l : List ℝ} {c c0 : ℝ}, Contracts r cs (c :: l) → (c :: l).getLast? = some c0 →
    c - cs ≤ (∏ i ∈ Finset.range l.length, lmRate r i) ^ 2 * (c0 - cs)
  | [], c, c0, _, h2 => by
    simp only [List.getLast?_singleton, Option.some.injEq] at h2
    simp [h2]
  | c1 :: l, c, c0, h1, h2 => by
    have ih := contracts_bound hr h1.2 (by simpa [List.getLast?_cons_cons] using h2)
    rw [List.length_cons, Finset.prod_range_succ, mul_pow]
    have := mul_le_mul_of_nonneg_left ih (sq_nonneg (lmRate r l.length))
    linarith [h1.1]

theorem lmRate_step {l μ0 E E' : ℝ} (hl : 0 < l) (hμ : 0 ≤ μ0) (k : ℕ) (h : (l + μ0 / 3 ^ k) ^ 2 * E' ≤ (μ0 / 3 ^ k) ^ 2 * E) :
    E' ≤ lmRate (μ0 / l) k ^ 2 * E := by
  have e : lmRate (μ0 / l) k = (μ0 / 3 ^ k) / (l + μ0 / 3 ^ k) := by
    unfold lmRate
    have h3 : (0 : ℝ) < 3 ^ k := by positivity
    have : 0 < l + μ0 / 3 ^ k := by positivity
    have : 0 < 1 + μ0 / l / 3 ^ k := by positivity
    field_simp
  have hp : 0 < (l + μ0 / 3 ^ k) ^ 2 := by positivity
  rw [e, div_pow, div_mul_eq_mul_div, le_div_iff₀ hp]
  linarith

theorem lm_loop {o : VarOps S} {P : Prob K S} {v0 : List (K × S)} {m n : ℕ} {e : Vec m} {H : Mat m n} (ha : AffineProb o P v0 m n e H)
    {l μ0 : ℝ} (hl : 0 < l) (hlow : ∀ v : Vec n, l * vecNorm v ^ 2 ≤ v ⬝ᵥ (Hᵀ * H) *ᵥ v) (hn : 0 < n) (hμ0 : 0 ≤ μ0)
    (hok : ∀ δ : Vec n, ∃ v, correctStates o P.constKeys P.varSlices (List.ofFn δ) v0 = .ok v) (hf : P.cfg.ftol = none) (hg : P.cfg.gradTol = none)
    {c0 : ℝ} : ∀ (N k : ℕ) (s : LoopState K S) (ζ : Vec n), LmState o P v0 e H ζ s → Contracts (μ0 / l) (linAt e H 0).cost s.costs →
      s.costs.getLast? = some c0 → (ζ = 0 ∨ s.costs.length = k + 1 ∧ s.mu = μ0 / 3 ^ k) →
      ∃ s' ζ', iterLoop (lmStep o P) N s = .ok s' ∧ LmState o P v0 e H ζ' s' ∧ Contracts (μ0 / l) (linAt e H 0).cost s'.costs ∧
        s'.costs.getLast? = some c0 ∧
        (ζ' = 0 ∨ s'.costs.length = k + N + 1 ∨ ∃ t ∈ P.cfg.stepTol, vecNorm ζ' ≤ (1 + μ0 / l) * t)
  | 0, k, s, ζ, h1, h2, h3, h4 => ⟨s, ζ, rfl, h1, h2, h3, h4.imp id fun h => Or.inl h.1⟩
  | N + 1, k, s, ζ, h1, h2, h3, h4 => by
    have hd : (Hᵀ * H).det ≠ 0 := det_of_lower hl hlow
    obtain ⟨⟨r, b⟩, hr, hcase⟩ := lm_pass ha hl hlow hn hok hf hg h1
    unfold iterLoop
    rw [hr, ok_bindE]
    simp only at hcase ⊢
    have zero : ∀ {r : LoopState K S} (j : ℕ), LmState o P v0 e H 0 r → r.costs = s.costs → ∃ s' ζ', iterLoop (lmStep o P) N r = .ok s' ∧
        LmState o P v0 e H ζ' s' ∧ Contracts (μ0 / l) (linAt e H 0).cost s'.costs ∧ s'.costs.getLast? = some c0 ∧
        (ζ' = 0 ∨ s'.costs.length = j + N + 1 ∨ ∃ t ∈ P.cfg.stepTol, vecNorm ζ' ≤ (1 + μ0 / l) * t) := by
      intro r j g1 g2
      exact lm_loop ha hl hlow hn hμ0 hok hf hg N j r 0 g1 (by rw [g2]; exact h2) (by rw [g2]; exact h3) (Or.inl rfl)
    rcases hcase with ⟨hz, g1, g2⟩ | ⟨hb, g1, g2, t, ht, g3⟩ | ⟨hb, ζ', g1, g2, g3, g4⟩
    · cases b with
      | true => exact ⟨r, 0, rfl, g1, by rw [g2]; exact h2, by rw [g2]; exact h3, Or.inl rfl⟩
      | false =>
        have := zero (k + 1) g1 g2
        rw [show k + (N + 1) + 1 = k + 1 + N + 1 by ring]
        simpa using this
    · subst hb
      refine ⟨r, ζ, rfl, g1, by rw [g2]; exact h2, by rw [g2]; exact h3, ?_⟩
      rcases h4 with h4 | ⟨-, h4⟩
      · exact Or.inl h4
      · refine Or.inr (Or.inr ⟨t, ht, g3.trans ?_⟩)
        have q1 : s.mu / l ≤ μ0 / l := div_le_div_of_nonneg_right (by rw [h4]; exact div_le_self hμ0 (one_le_pow₀ (by norm_num))) hl.le
        have q2 : 0 ≤ s.mu / l := div_nonneg h1.mu hl.le
        have q3 := (vecNorm_nonneg ζ).trans g3
        have q4 : 0 ≤ t := by
          by_contra hneg
          have : (1 + s.mu / l) * t < 0 := mul_neg_of_pos_of_neg (by linarith) (not_le.1 hneg)
          linarith
        exact mul_le_mul_of_nonneg_right (by linarith) q4
    · subst hb
      have hcs : s.costs.headD 0 = (linAt e H ζ).cost := by rw [h1.head, h1.lin]
      obtain ⟨c, cl, hcl⟩ : ∃ c cl, s.costs = c :: cl := by
        cases hc : s.costs with
        | nil => rw [hc] at h3; simp at h3
        | cons c cl => exact ⟨c, cl, rfl⟩
      rw [hcl] at hcs
      simp only [List.headD_cons] at hcs
      have hE : energy (Hᵀ * H) ζ' ≤ lmRate (μ0 / l) cl.length ^ 2 * energy (Hᵀ * H) ζ := by
        rcases h4 with h4 | ⟨h4, h5⟩
        · have e0 : energy (Hᵀ * H) ζ = 0 := by rw [h4]; unfold energy; rw [zero_dotProduct]
          rw [e0, mul_zero]
          rw [e0, mul_zero] at g4
          have : 0 < (l + s.mu) ^ 2 := by have := h1.mu; positivity
          nlinarith
        · have hk : cl.length = k := by rw [hcl, List.length_cons] at h4; omega
          rw [hk]
          exact lmRate_step hl hμ0 k (by rw [← h5]; exact g4)
      have hcon : Contracts (μ0 / l) (linAt e H 0).cost r.costs := by
        rw [g2, hcl]
        refine ⟨?_, by rw [← hcl]; exact h2⟩
        rw [hcs, linAt_cost hd ζ', linAt_cost hd ζ]
        linarith
      have hlast : r.costs.getLast? = some c0 := by
        rw [g2, hcl, List.getLast?_cons_cons, ← hcl]; exact h3
      obtain ⟨s', ζ'', i1, i2, i3, i4, i5⟩ := lm_loop ha hl hlow hn hμ0 hok hf hg N (k + 1) r ζ' g1 hcon hlast (by
        rcases h4 with h4 | ⟨h4, h5⟩
        · left
          have e0 : energy (Hᵀ * H) ζ = 0 := by rw [h4]; unfold energy; rw [zero_dotProduct]
          rw [e0, mul_zero] at g4
          have hp : 0 < (l + s.mu) ^ 2 := by have := h1.mu; positivity
          have hq := hlow ζ'
          have : energy (Hᵀ * H) ζ' ≤ 0 := by nlinarith
          unfold energy at this
          have h0 : vecNorm ζ' ^ 2 = 0 := le_antisymm (by nlinarith) (sq_nonneg _)
          exact vecNorm_zero_iff_zero (pow_eq_zero_iff two_ne_zero |>.1 h0)
        · right
          refine ⟨by rw [g2, List.length_cons, h4], ?_⟩
          rw [g3, h5, pow_succ]
          field_simp)
      refine ⟨s', ζ'', by simpa using i1, i2, i3, i4, ?_⟩
      rw [show k + (N + 1) + 1 = k + 1 + N + 1 by ring]
      exact i5

/-- Gauss-Newton that has solved a problem had something to solve for. -/
theorem gn_dof_pos {o : VarOps S} {P P1 P' : Prob K S} (hs : P.cfg.solver = "GN") (hit : 0 < P.cfg.maxIters)
    (h : P.solve o = .ok P') (hP1 : P.started o = .ok P1) : 0 < P1.sizeState := by
  obtain ⟨P1', hP1', h'⟩ := solve_GN hs h
  rw [hP1] at hP1'
  obtain rfl : P1 = P1' := Except.ok.inj hP1'
  obtain ⟨e1, -⟩ := started_fields hP1
  unfold solveGN at h'
  obtain ⟨L, h2, h'⟩ := bind_ok h'
  obtain ⟨s, h3, h'⟩ := bind_ok h'
  obtain ⟨N, hN⟩ : ∃ N, P1.cfg.maxIters = N + 1 := ⟨P1.cfg.maxIters - 1, by rw [e1]; omega⟩
  rw [hN] at h3
  unfold iterLoop at h3
  obtain ⟨r, hr, h3⟩ := bind_ok h3
  unfold gnStep at hr
  rw [if_neg (by simp [isConverged])] at hr
  obtain ⟨δ, g1, hr⟩ := bind_ok hr
  obtain ⟨w, g2, hr⟩ := bind_ok hr
  obtain ⟨L', g3, hr⟩ := bind_ok hr
  obtain ⟨g, g4, hr⟩ := bind_ok hr
  obtain ⟨-, i, -⟩ := npMax_ok g4
  have := (linearize_shape g3).2
  have hi := i.2
  omega

/-! ### The property -/

/-- The same problem for Levenberg-Marquardt: `N` iterations, step tolerance `st`, no other tolerance, initial damping factor `tau`. -/
def lmOf (P : Prob K S) (tau : ℝ) (N : ℕ) (st : Option ℝ) : Prob K S := { P with cfg := ⟨"LM", N, st, none, none, tau⟩ }

theorem contracts_index {r cs : ℝ} : ∀ {l : List ℝ}, Contracts r cs l → ∀ (i : ℕ) (a b : ℝ), l.reverse[i]? = some a → l.reverse[i + 1]? = some b →
    b - cs ≤ lmRate r i ^ 2 * (a - cs)
  | [], _, i, a, b, h1, h2 => by simp at h1
  | [x], _, i, a, b, h1, h2 => by simp at h2
  | c' :: c :: l, h, i, a, b, h1, h2 => by
    rw [List.reverse_cons] at h1 h2
    have hlen : (c :: l).reverse.length = l.length + 1 := by simp
    by_cases hi : i + 1 < l.length + 1
    · rw [List.getElem?_append_left (by rw [hlen]; omega)] at h1 h2
      exact contracts_index h.2 i a b h1 h2
    · have hib : i + 1 < ((c :: l).reverse ++ [c']).length := (List.getElem?_eq_some_iff.1 h2).1
      rw [List.length_append, hlen, List.length_singleton] at hib
      obtain rfl : i = l.length := by omega
      rw [List.getElem?_append_right (by rw [hlen]), hlen, Nat.sub_self] at h2
      rw [List.getElem?_append_left (by rw [hlen]; omega), List.reverse_cons, List.getElem?_append_right (by simp), List.length_reverse,
        Nat.sub_self] at h1
      simp only [List.getElem?_cons_zero, Option.some.injEq] at h1 h2
      subst h1 h2
      exact h.1

theorem entry_diff {const : List K} {vs : List (K × Slice)} {n : ℕ} {v0 : List (K × List ℝ)} (hfit : SlicesFit const vs n v0) (δ δ' : Vec n)
    (k : K) (i : ℕ) : |(valOf (moveAll const vs δ v0) k).getD i 0 - (valOf (moveAll const vs δ' v0) k).getD i 0| ≤ vecNorm (δ - δ') := by
  have hz : |(0 : ℝ)| ≤ vecNorm (δ - δ') := by rw [abs_zero]; exact vecNorm_nonneg _
  cases hx : v0.lookup k with
  | none =>
    have : ∀ d : Vec n, valOf (moveAll const vs d v0) k = [] := by
      intro d; unfold valOf; rw [moveAll_lookup, hx]; rfl
    rw [this, this, sub_self]; exact hz
  | some x =>
    by_cases hk : k ∈ const
    · have : ∀ d : Vec n, valOf (moveAll const vs d v0) k = x := by
        intro d; unfold valOf; rw [moveAll_const _ hk, hx]; rfl
      rw [this, this, sub_self]; exact hz
    · obtain ⟨s, s1, s2, s3⟩ := hfit (k, x) (mem_of_lookup hx) hk
      simp only at s1 s2
      by_cases hi : i < x.length
      · have hb : s.start + i < n := by omega
        rw [moveAll_entry δ hx hk s1 s2 s3 hi hb, moveAll_entry δ' hx hk s1 s2 s3 hi hb, add_sub_add_left_eq_sub]
        exact entry_le_norm (δ - δ') ⟨s.start + i, hb⟩
      · have : ∀ d : Vec n, (valOf (moveAll const vs d v0) k).getD i 0 = 0 := by
          intro d
          unfold valOf
          rw [moveAll_lookup, hx, Option.map_some, Option.getD_some, if_neg hk, s1, Option.getD_some, List.getD_eq_getElem?_getD,
            List.getElem?_eq_none (by simpa [moveVec] using not_lt.1 hi), Option.getD_none]
        rw [this, this, sub_self]; exact hz

/-- **C142.** A linear problem that Gauss-Newton solves is solved by Levenberg-Marquardt too, whatever the initial damping factor, the number
of iterations and the step tolerance. With `r` a multiple of the damping factor: pass `i` reduces the excess of the cost over the least cost
to `lmRate r i ^ 2` of what it was, or less; so the excess at the end is within the product of these of the initial one, unless the passes were ended
by the step tolerance `t`, when every entry of the estimate is within `(1 + r) t` of the Gauss-Newton estimate. The squared errors of the entries
are at most a fixed multiple of the excess. The covariance blocks are those of Gauss-Newton. -/
theorem C142_lm (P PG : Prob K (List ℝ)) (hP : LinearProblem P) (hs : P.cfg.solver = "GN") (hit : 0 < P.cfg.maxIters)
    (h : P.solve vecVarOps = .ok PG) :
    ∃ ρ κ c0 cs : ℝ, 0 ≤ ρ ∧ 0 ≤ κ ∧ totalCost P.varsInit (P.residuals.zip P.losses) = .ok c0 ∧
      totalCost PG.vars (P.residuals.zip P.losses) = .ok cs ∧
      ∀ (tau : ℝ) (N : ℕ) (st : Option ℝ), 0 ≤ tau →
        ∃ (P' : Prob K (List ℝ)) (c : ℝ) (hist : List ℝ), (lmOf P tau N st).solve vecVarOps = .ok P' ∧ Allowed P P'.vars ∧
          totalCost P'.vars (P.residuals.zip P.losses) = .ok c ∧ cs ≤ c ∧
          (∀ k i, ((valOf P'.vars k).getD i 0 - (valOf PG.vars k).getD i 0) ^ 2 ≤ κ * (c - cs)) ∧
          (c - cs ≤ (∏ i ∈ Finset.range N, lmRate (tau * ρ) i) ^ 2 * (c0 - cs) ∨
            ∃ t, st = some t ∧ ∀ k i, |(valOf P'.vars k).getD i 0 - (valOf PG.vars k).getD i 0| ≤ (1 + tau * ρ) * t) ∧
          P'.costHistory = hist ++ [c] ∧ hist.head? = some c0 ∧ hist.getLast? = some c ∧
          (∀ (i : ℕ) (a b : ℝ), hist[i]? = some a → hist[i + 1]? = some b → b - cs ≤ lmRate (tau * ρ) i ^ 2 * (a - cs)) ∧
          (P.cov = none → ∀ k1 k2, (P'.getCovarianceBlock k1 k2).map Prod.fst = (PG.getCovarianceBlock k1 k2).map Prod.fst) := by
  obtain ⟨P1, e, H, c1, hP1, hL, ha, hfit, hcost⟩ := linear_coords hP
  have hd := linear_regular hs hit h hP1 hL
  have hn := gn_dof_pos hs hit h hP1
  obtain ⟨l, hl, hlow⟩ := gram_lower hd
  obtain ⟨e1, e2, e3, e4, e5, e6, e7, e8⟩ := started_fields hP1
  obtain ⟨hgv, -⟩ := C40_gn_affine vecVarOps P P1 PG hs hit hP1 h _ _ e H ha hd
  rw [e3, correct_vec _ hfit] at hgv
  have hgv := (Except.ok.inj hgv).symm
  obtain ⟨hGi, hGs, hGc, -⟩ := C40_information vecVarOps P P1 PG hs hP1 h _ _ e H ha
  obtain ⟨mx, hmx⟩ : ∃ mx, npMax (fun j => (Hᵀ * H) j j) = .ok mx := by unfold npMax; exact ⟨_, dif_pos hn⟩
  have hmx0 : 0 ≤ mx := by
    obtain ⟨i, hi⟩ := (npMax_ok hmx).2
    rw [← hi]
    show 0 ≤ ∑ j, H j i * H j i
    exact Finset.sum_nonneg fun j _ => mul_self_nonneg _
  have hat : ∀ ζ : Vec P1.sizeState, totalCost (moveAll P.constKeys P1.varSlices (gnDelta e H + ζ) P.varsInit) (P.residuals.zip P.losses) =
      .ok (linAt e H ζ).cost := fun ζ => hcost _
  have hE : ∀ ζ : Vec P1.sizeState, vecNorm ζ ^ 2 ≤ 2 / l * ((linAt e H ζ).cost - (linAt e H 0).cost) := by
    intro ζ
    rw [linAt_cost hd ζ, add_sub_cancel_left]
    have := hlow ζ
    rw [div_mul_eq_mul_div, le_div_iff₀ hl]
    unfold energy
    linarith
  have hz0 : gnDelta e H + -gnDelta e H = 0 := add_neg_cancel _
  refine ⟨mx / l, 2 / l, (linAt e H (-gnDelta e H)).cost, (linAt e H 0).cost, by positivity, by positivity, ?_, ?_, ?_⟩
  · rw [← hat, hz0, moveAll_zero]
  · rw [← hat, add_zero, hgv]
  intro tau N st htau
  obtain ⟨c', hc'⟩ : ∃ c', c' = (⟨"LM", N, st, none, none, tau⟩ : ProbCfg) := ⟨_, rfl⟩
  obtain ⟨Q1, hQ1⟩ : ∃ Q1, Q1 = ({ P1 with cfg := c' } : Prob K (List ℝ)) := ⟨_, rfl⟩
  have q1 : Q1.constKeys = P.constKeys := by rw [hQ1]; exact e3
  have q2 : Q1.varSlices = P1.varSlices := by rw [hQ1]
  have q3 : Q1.cfg = c' := by rw [hQ1]
  have q4 : Q1.vars = P.varsInit := by rw [hQ1]; exact e6
  have q5 : Q1.cov = P.cov := by rw [hQ1]; exact e8
  have hlinQ : ∀ v, Q1.linearize v = P1.linearize v := by intro v; rw [hQ1]; exact linearize_cfg c' v
  have haQ : AffineProb vecVarOps Q1 P.varsInit P1.sizeErr P1.sizeState e H := by
    refine ⟨?_, ?_, ?_⟩
    · rw [hQ1]; exact ha.zero
    · rw [hQ1]; exact ha.add
    · intro δ v hv
      rw [hlinQ]
      exact ha.lin δ v (by rw [hQ1] at hv; exact hv)
  have hcor : ∀ δ : Vec P1.sizeState, correctStates vecVarOps Q1.constKeys Q1.varSlices (List.ofFn δ) P.varsInit =
      .ok (moveAll P.constKeys P1.varSlices δ P.varsInit) := by
    intro δ; rw [q1, q2]; exact correct_vec δ hfit
  have hL0 : Q1.linearize Q1.vars = .ok (linAt e H (-gnDelta e H)) := by
    rw [q4]
    have := haQ.lin 0 _ haQ.zero
    rw [this]
    unfold linAt
    rw [hz0]
  obtain ⟨s', ζ', g1, g2, g3, g4, g5⟩ := lm_loop haQ (μ0 := tau * mx) hl hlow hn (mul_nonneg htau hmx0) (fun δ => ⟨_, hcor δ⟩) (by rw [q3, hc'])
    (by rw [q3, hc']) (c0 := (linAt e H (-gnDelta e H)).cost) N 0 (lmStart Q1 (linAt e H (-gnDelta e H)) mx) (-gnDelta e H)
    ⟨by rw [hz0]; show _ = Except.ok Q1.vars; rw [q4]; exact haQ.zero, rfl, rfl, rfl, by show 0 ≤ Q1.cfg.tau * mx; rw [q3, hc']; exact mul_nonneg htau hmx0,
      zero_le_two⟩ trivial rfl (Or.inr ⟨rfl, by show Q1.cfg.tau * mx = _; rw [q3, hc', pow_zero, div_one]⟩)
  have hv' : s'.vars = moveAll P.constKeys P1.varSlices (gnDelta e H + ζ') P.varsInit := by
    have := g2.vars
    rw [hcor] at this
    exact (Except.ok.inj this).symm
  obtain ⟨c, cl, hcl⟩ : ∃ c cl, s'.costs = c :: cl := by
    cases hc : s'.costs with
    | nil => rw [hc] at g4; simp at g4
    | cons c cl => exact ⟨c, cl, rfl⟩
  have hcc : c = (linAt e H ζ').cost := by
    have := g2.head
    rw [hcl, g2.lin] at this
    exact this
  have hLf : Q1.linearize s'.vars = .ok (linAt e H ζ') := haQ.lin _ _ g2.vars
  obtain ⟨P', hP'⟩ : ∃ P', P' = ({ Q1 with vars := s'.vars, costHistory := (c :: s'.costs).reverse, info := s'.info } : Prob K (List ℝ)) := ⟨_, rfl⟩
  have hsolve : (lmOf P tau N st).solve vecVarOps = .ok P' := by
    have h1 : (lmOf P tau N st).started vecVarOps = .ok Q1 := by
      rw [hQ1, hc']; exact started_cfg _ hP1
    have h2 : solveLM vecVarOps Q1 = .ok P' := by
      have hN : Q1.cfg.maxIters = N := by rw [q3, hc']
      have g1' : iterLoop (lmStep vecVarOps Q1) Q1.cfg.maxIters (lmStart Q1 (linAt e H (-gnDelta e H)) mx) = .ok s' := by rw [hN]; exact g1
      unfold solveLM
      rw [hL0, ok_bindE]
      have hmx' : npMax (fun j => (linAt e H (-gnDelta e H)).A j j) = .ok mx := hmx
      rw [hmx', ok_bindE]
      refine Eq.trans (congrArg (fun z => z >>= _) g1') ?_
      rw [ok_bindE, hLf, ok_bindE, hP', hcc]
      rfl
    unfold Prob.solve
    refine Eq.trans (congrArg (fun z => z >>= _) h1) ?_
    rw [ok_bindE]
    exact h2
  have hPv : P'.vars = moveAll P.constKeys P1.varSlices (gnDelta e H + ζ') P.varsInit := by rw [hP']; exact hv'
  have hdiff : ∀ k i, |(valOf P'.vars k).getD i 0 - (valOf PG.vars k).getD i 0| ≤ vecNorm ζ' := by
    intro k i
    have := entry_diff hfit (gnDelta e H + ζ') (gnDelta e H) k i
    rwa [add_sub_cancel_left, ← hPv, ← hgv] at this
  have hr : tau * mx / l = tau * (mx / l) := mul_div_assoc _ _ _
  rw [hr] at g3 g5
  refine ⟨P', c, s'.costs.reverse, hsolve, ⟨?_, ?_⟩, ?_, ?_, ?_, ?_, ?_, ?_, ?_, ?_, ?_⟩
  · rw [hPv]; exact moveAll_shape _ _
  · intro k hk; rw [hPv]; exact moveAll_const _ hk
  · rw [hPv, hat, hcc]
  · have := hE ζ'
    have h0 := sq_nonneg (vecNorm ζ')
    rw [hcc, linAt_cost hd ζ']
    have := hlow ζ'
    have := mul_nonneg hl.le h0
    unfold energy
    linarith
  · intro k i
    rw [hcc]
    refine le_trans ?_ (hE ζ')
    rw [← sq_abs]
    exact pow_le_pow_left₀ (abs_nonneg _) (hdiff k i) 2
  · rcases g5 with g5 | g5 | ⟨t, ht, g5⟩
    · left
      rw [hcc, g5, sub_self]
      refine mul_nonneg (sq_nonneg _) ?_
      rw [linAt_cost hd (-gnDelta e H), add_sub_cancel_left]
      have := hlow (-gnDelta e H)
      have := mul_nonneg hl.le (sq_nonneg (vecNorm (-gnDelta e H)))
      unfold energy
      linarith
    · left
      rw [hcl] at g3 g4 g5
      have hlen : cl.length = N := by rw [List.length_cons] at g5; omega
      have := contracts_bound (by positivity) g3 g4
      rwa [hlen] at this
    · right
      refine ⟨t, ?_, fun k i => (hdiff k i).trans g5⟩
      have ht' : t ∈ st := by rw [q3, hc'] at ht; exact ht
      exact ht'
  · rw [hP']
    show (c :: s'.costs).reverse = _
    rw [List.reverse_cons]
  · rw [List.head?_reverse]; exact g4
  · rw [List.getLast?_reverse, hcl]; rfl
  · exact fun i a b => contracts_index g3 i a b
  · intro hcv k1 k2
    have i1 : P'.info = PG.info := by rw [hP', hGi]; exact g2.info
    have i2 : P'.cov = PG.cov := by rw [hP', hGc]; exact q5
    have i3 : P'.varSlices = PG.varSlices := by rw [hP', hGs]; exact q2
    have hcG : PG.cov = none := hGc.trans hcv
    have hcov : (P'.computeCovariance).cov = (PG.computeCovariance).cov ∧ (P'.computeCovariance).varSlices = (PG.computeCovariance).varSlices := by
      unfold Prob.computeCovariance
      rw [i1, hGi]
      simp only
      split
      · exact ⟨i2, i3⟩
      · exact ⟨rfl, i3⟩
    unfold Prob.getCovarianceBlock
    rw [i2, hcG]
    simp only [Option.isNone_none, if_true]
    rw [hcov.1, hcov.2]
    cases (PG.computeCovariance).varSlices.lookup k1 with
    | none => rfl
    | some s1 =>
      cases (PG.computeCovariance).varSlices.lookup k2 with
      | none => rfl
      | some s2 =>
        cases (PG.computeCovariance).cov with
        | none => rfl
        | some M => rfl

/-- **C142.** Without tolerances: the estimates tend to those of Gauss-Newton as more iterations are allowed. -/
theorem C142_limit (P PG : Prob K (List ℝ)) (hP : LinearProblem P) (hs : P.cfg.solver = "GN") (hit : 0 < P.cfg.maxIters)
    (h : P.solve vecVarOps = .ok PG) (tau : ℝ) (htau : 0 ≤ tau) (ε : ℝ) (hε : 0 < ε) :
    ∃ N0 : ℕ, ∀ N, N0 ≤ N → ∃ P', (lmOf P tau N none).solve vecVarOps = .ok P' ∧
      ∀ k i, |(valOf P'.vars k).getD i 0 - (valOf PG.vars k).getD i 0| ≤ ε := by
  obtain ⟨ρ, κ, c0, cs, hρ, hκ, -, -, hall⟩ := C142_lm P PG hP hs hit h
  obtain ⟨r, hr⟩ : ∃ r, r = tau * ρ := ⟨_, rfl⟩
  have hr0 : 0 ≤ r := by rw [hr]; exact mul_nonneg htau hρ
  obtain ⟨q, hq⟩ : ∃ q, q = r / (1 + r) := ⟨_, rfl⟩
  have hq0 : 0 ≤ q := by rw [hq]; positivity
  have hq1 : q < 1 := by rw [hq, div_lt_one (by positivity)]; linarith
  have hc0 : 0 ≤ c0 - cs := by
    obtain ⟨P', c, hist, -, -, -, k1, -, k2, -⟩ := hall tau 0 none htau
    rcases k2 with k2 | ⟨t, ht, -⟩
    · simp at k2; linarith
    · cases ht
  have htend : Filter.Tendsto (fun N : ℕ => κ * ((q ^ N) ^ 2 * (c0 - cs))) Filter.atTop (nhds (κ * (0 ^ 2 * (c0 - cs)))) :=
    (((tendsto_pow_atTop_nhds_zero_of_lt_one hq0 hq1).pow 2).mul_const _).const_mul _
  rw [show κ * ((0 : ℝ) ^ 2 * (c0 - cs)) = 0 by ring] at htend
  obtain ⟨N0, hN0⟩ := Filter.eventually_atTop.1 (htend.eventually_le_const (show (0 : ℝ) < ε ^ 2 by positivity))
  refine ⟨N0, fun N hN => ?_⟩
  obtain ⟨P', c, hist, k0, -, -, k1, k3, k2, -⟩ := hall tau N none htau
  refine ⟨P', k0, fun k i => ?_⟩
  rcases k2 with k2 | ⟨t, ht, -⟩
  · rw [← hr] at k2
    have hprod : ∏ i ∈ Finset.range N, lmRate r i ≤ q ^ N := by
      have := Finset.prod_le_prod (s := Finset.range N) (f := fun i => lmRate r i) (g := fun _ => q) (fun i _ => lmRate_nonneg hr0 i)
        (fun i _ => by rw [hq]; exact lmRate_le hr0 i)
      simpa using this
    have hp0 : 0 ≤ ∏ i ∈ Finset.range N, lmRate r i := Finset.prod_nonneg fun i _ => lmRate_nonneg hr0 i
    have b1 : c - cs ≤ (q ^ N) ^ 2 * (c0 - cs) := k2.trans (mul_le_mul_of_nonneg_right (pow_le_pow_left₀ hp0 hprod 2) hc0)
    have b2 := (k3 k i).trans ((mul_le_mul_of_nonneg_left b1 hκ).trans (hN0 N hN))
    exact abs_le_of_sq_le_sq' b2 hε.le |> abs_le.2
  · cases ht

/-! ### A concrete case: `x - 1` and `x + y - 5`, from 0 and 0 -/

/-- The hypotheses are met, and the initial cost is not the least one. -/
example : ∃ PG c0 cs, exProb2.solve vecVarOps = .ok PG ∧ totalCost exProb2.varsInit (exProb2.residuals.zip exProb2.losses) = .ok c0 ∧
    totalCost PG.vars (exProb2.residuals.zip exProb2.losses) = .ok cs ∧ cs < c0 ∧
    ∀ ε > 0, ∃ N0 : ℕ, ∀ N, N0 ≤ N → ∃ P', (lmOf exProb2 1 N none).solve vecVarOps = .ok P' ∧
      ∀ k i, |(valOf P'.vars k).getD i 0 - (valOf PG.vars k).getD i 0| ≤ ε := by
  obtain ⟨PG, hPG⟩ := exProb2_solve
  obtain ⟨ρ, κ, c0, cs, hρ, hκ, h0, h1, hall⟩ := C142_lm exProb2 PG exProb2_linear rfl (by decide) hPG
  refine ⟨PG, c0, cs, hPG, h0, h1, ?_, fun ε hε => C142_limit exProb2 PG exProb2_linear rfl (by decide) hPG 1 zero_le_one ε hε⟩
  obtain ⟨-, -, cf, hcf, hmin⟩ := C40_linear exProb2 PG exProb2_linear rfl (by decide) hPG
  rw [h1] at hcf
  obtain rfl := Except.ok.inj hcf
  have hcost : ∀ a b : ℝ, totalCost [(1, [a]), (2, [b])] (exProb2.residuals.zip exProb2.losses) =
      .ok (1 / 2 * (-1 + a) ^ 2 + 1 / 2 * (-5 + (a + b)) ^ 2) := by
    intro a b
    simp [exProb2, totalCost, lookupAll, dictGet, linRes, linErr, bind, Except.bind, List.lookup, pure, Except.pure, l2Loss, listNorm]
    rw [mul_assoc, mul_assoc, Real.mul_self_sqrt (mul_self_nonneg _), Real.mul_self_sqrt (mul_self_nonneg _)]
    ring
  have hinit : totalCost exProb2.varsInit (exProb2.residuals.zip exProb2.losses) = _ := hcost 0 0
  rw [hinit] at h0
  obtain rfl := Except.ok.inj h0
  obtain ⟨c, k1, k2, -⟩ := hmin [(1, [1]), (2, [4])] ⟨rfl, rfl⟩ (by simp [exProb2])
  rw [hcost] at k1
  obtain rfl := Except.ok.inj k1
  norm_num at k2 ⊢
  linarith

end Verif
