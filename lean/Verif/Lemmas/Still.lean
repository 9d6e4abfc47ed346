import Verif.Props.Problem
import Verif.Lemmas.Assembly
import Verif.Lemmas.LinAlg

/-!
A least squares problem whose residuals all vanish at the initial variables: the solvers stay there.
-/

namespace Verif

set_option linter.unusedVariables false
set_option linter.unusedSectionVars false

open Matrix

variable {K S : Type} [DecidableEq K]

/-- Adding a zero step changes nothing. -/
def ZeroStep (o : VarOps S) (P : Prob K S) (N : ℕ) (v : List (K × S)) : Prop :=
  ∀ p ∈ v, p.1 ∉ P.constKeys → ∃ s, P.varSlices.lookup p.1 = some s ∧
    o.plus p.2 (((List.ofFn (0 : Vec N)).drop s.start).take (s.stop - s.start)) = .ok p.2

theorem correct_zero {o : VarOps S} {P : Prob K S} {N : ℕ} : ∀ {v : List (K × S)}, ZeroStep o P N v →
    correctStates o P.constKeys P.varSlices (List.ofFn (0 : Vec N)) v = .ok v
  | [], h => rfl
  | (k, x) :: l, h => by
    have ih := correct_zero (v := l) fun p hp => h p (List.mem_cons_of_mem _ hp)
    unfold correctStates
    by_cases hk : k ∈ P.constKeys
    · rw [if_pos hk, ih]; rfl
    · rw [if_neg hk]
      obtain ⟨s, h1, h2⟩ := h (k, x) (by simp) hk
      simp only at h1 h2
      rw [dictGet_ok.2 h1]
      show (o.plus x _ >>= _) = _
      rw [h2]
      show (correctStates _ _ _ _ l >>= _) = _
      rw [ih]
      rfl

theorem Lin.b_zero {L : Lin} (he : L.e = 0) : L.b = 0 := by
  unfold Lin.b
  rw [he, mulVec_zero]

theorem spsolve_zero {n : ℕ} {A : Mat n n} (hd : A.det ≠ 0) : spsolve A (0 : Vec n) = .ok 0 := by
  unfold spsolve
  rw [if_neg hd, neg_zero, mulVec_zero]

theorem gradNorm_ok {L : Lin} (hn : 0 < L.n) : ∃ g, L.gradNorm = .ok g := by
  unfold Lin.gradNorm npMax
  rw [dif_pos hn]
  exact ⟨_, rfl⟩

theorem vecNorm_zero {n : ℕ} : vecNorm (0 : Vec n) = 0 := by
  unfold vecNorm
  rw [zero_dotProduct, Real.sqrt_zero]

/-- Gauss-Newton from a point of zero error: two evaluations, nothing changes. -/
theorem gn_still {o : VarOps S} {P : Prob K S} {L : Lin} (hL : P.linearize P.vars = .ok L) (he : L.e = 0)
    (hn : 0 < L.n) (hit : 0 < P.cfg.maxIters) (hd : L.A.det ≠ 0) (hz : ZeroStep o P L.n P.vars) :
    solveGN o P = .ok { P with costHistory := [L.cost, L.cost, L.cost], info := some ⟨L.n, L.A⟩ } := by
  obtain ⟨g, hg⟩ := gradNorm_ok hn
  have hstep : gnStep o P ⟨P.vars, L, [L.cost], none, none, 10, none, 0, 0⟩ =
      .ok (⟨P.vars, L, [L.cost, L.cost], some |L.cost - L.cost|, some g, 0, some ⟨L.n, L.A⟩, 0, 0⟩, false) := by
    unfold gnStep
    rw [if_neg (by simp [isConverged])]
    show (spsolve L.A L.b >>= _) = _
    rw [Lin.b_zero he, spsolve_zero hd]
    show (correctStates o P.constKeys P.varSlices (List.ofFn (0 : Vec L.n)) P.vars >>= _) = _
    rw [correct_zero hz]
    show (P.linearize P.vars >>= _) = _
    rw [hL]
    show (L.gradNorm >>= _) = _
    rw [hg]
    show Except.ok _ = _
    rw [vecNorm_zero]
    rfl
  have hloop : iterLoop (gnStep o P) P.cfg.maxIters ⟨P.vars, L, [L.cost], none, none, 10, none, 0, 0⟩ =
      .ok ⟨P.vars, L, [L.cost, L.cost], some |L.cost - L.cost|, some g, 0, some ⟨L.n, L.A⟩, 0, 0⟩ := by
    obtain ⟨k, hk⟩ : ∃ k, P.cfg.maxIters = k + 1 := ⟨P.cfg.maxIters - 1, by omega⟩
    rw [hk]
    unfold iterLoop
    rw [hstep]
    show iterLoop (gnStep o P) k _ = _
    cases k with
    | zero => rfl
    | succ k =>
      unfold iterLoop
      have : gnStep o P ⟨P.vars, L, [L.cost, L.cost], some |L.cost - L.cost|, some g, 0, some ⟨L.n, L.A⟩, 0, 0⟩ =
          .ok (⟨P.vars, L, [L.cost, L.cost], some |L.cost - L.cost|, some g, 0, some ⟨L.n, L.A⟩, 0, 0⟩, true) := by
        unfold gnStep
        rw [if_pos (by simp [isConverged])]
      rw [this]
      rfl
  unfold solveGN
  rw [hL]
  show (iterLoop _ _ _ >>= _) = _
  rw [hloop]
  show (P.linearize P.vars >>= _) = _
  rw [hL]
  rfl

/-- If the information matrix is singular there, Gauss-Newton yields NaN. -/
theorem gn_still_singular {o : VarOps S} {P : Prob K S} {L : Lin} (hL : P.linearize P.vars = .ok L)
    (hit : 0 < P.cfg.maxIters) (hd : L.A.det = 0) : solveGN o P = .error .nan := by
  have hstep : gnStep o P ⟨P.vars, L, [L.cost], none, none, 10, none, 0, 0⟩ = .error .nan := by
    unfold gnStep
    rw [if_neg (by simp [isConverged])]
    show (spsolve L.A L.b >>= _) = _
    unfold spsolve
    rw [if_pos hd]
    rfl
  unfold solveGN
  rw [hL]
  show (iterLoop _ _ _ >>= _) = _
  obtain ⟨k, hk⟩ : ∃ k, P.cfg.maxIters = k + 1 := ⟨P.cfg.maxIters - 1, by omega⟩
  rw [hk]
  unfold iterLoop
  rw [hstep]
  rfl

theorem shifted_det {L : Lin} (hd : L.A.det ≠ 0) {mu : ℝ} (hmu : 0 ≤ mu) :
    (L.A + mu • (1 : Mat L.n L.n)).det ≠ 0 := by
  have hinj : Function.Injective L.H.mulVec := by
    intro x y hxy
    have h : L.A *ᵥ x = L.A *ᵥ y := by
      have e : L.H *ᵥ x = L.H *ᵥ y := hxy
      unfold Lin.A
      rw [← mulVec_mulVec, ← mulVec_mulVec, e]
    have := congrArg (fun z => L.A⁻¹ *ᵥ z) h
    simpa only [mulVec_mulVec, nonsing_inv_mul _ (isUnit_iff_ne_zero.2 hd), one_mulVec] using this
  have hpd : L.A.PosDef := by
    have := Matrix.PosDef.conjTranspose_mul_self L.H hinj
    rwa [conjTranspose_eq_transpose_of_trivial] at this
  have := hpd.add_posSemidef (Matrix.PosSemidef.one.smul hmu)
  exact pd_det this

/-- Levenberg-Marquardt from a point of zero error: every step is zero and is rejected, all `max_iters` iterations are
run, nothing changes. -/
theorem lm_loop_still {o : VarOps S} {P : Prob K S} {L : Lin} (hL : P.linearize P.vars = .ok L) (he : L.e = 0)
    (hn : 0 < L.n) (hd : L.A.det ≠ 0) (hz : ZeroStep o P L.n P.vars) :
    ∀ (k : ℕ) (g : Option ℝ) (d mu nu : ℝ), 0 ≤ mu → 0 ≤ nu → ∃ g' d' mu' nu',
      iterLoop (lmStep o P) k ⟨P.vars, L, [L.cost], none, g, d, some ⟨L.n, L.A⟩, mu, nu⟩ =
        .ok ⟨P.vars, L, [L.cost], none, g', d', some ⟨L.n, L.A⟩, mu', nu'⟩ ∧ mu' = mu * nu ^ k * 2 ^ (k * (k - 1) / 2)
  | 0, g, d, mu, nu, hmu, hnu => ⟨g, d, mu, nu, rfl, by simp⟩
  | k + 1, g, d, mu, nu, hmu, hnu => by
    obtain ⟨gn, hg⟩ := gradNorm_ok hn
    have hstep : lmStep o P ⟨P.vars, L, [L.cost], none, g, d, some ⟨L.n, L.A⟩, mu, nu⟩ =
        .ok (⟨P.vars, L, [L.cost], none, some gn, 0, some ⟨L.n, L.A⟩, mu * nu, 2 * nu⟩, false) := by
      unfold lmStep
      show (spsolve (L.A + mu • (1 : Mat L.n L.n)) L.b >>= _) = _
      rw [Lin.b_zero he, spsolve_zero (shifted_det hd hmu)]
      have hc : ∀ c x : ℝ, ¬ (isConverged P.cfg none c x g = true) := by
        simp [isConverged]
      have hcz := correct_zero hz
      simp only [bind, Except.bind]
      rw [if_neg (hc _ _), hcz]
      simp only [hL, hg]
      have hden : gainDen (0 : Vec L.n) L.b mu = 0 := by
        unfold gainDen
        rw [zero_dotProduct, mul_zero]
      have hgp : gainPositive (L.cost - L.cost) 0 = false := by
        unfold gainPositive
        simp
      unfold lmUpdate
      simp only [vecNorm_zero, Lin.b_zero he] at hden ⊢
      rw [hden]
      rw [if_neg (by rw [List.headD_cons, hgp]; simp)]
      rfl
    obtain ⟨g', d', mu', nu', h1, h2⟩ := lm_loop_still hL he hn hd hz k (some gn) 0 (mu * nu) (2 * nu)
      (mul_nonneg hmu hnu) (by linarith)
    refine ⟨g', d', mu', nu', ?_, ?_⟩
    · unfold iterLoop
      rw [hstep]
      exact h1
    · rw [h2]
      have e : (k + 1) * (k + 1 - 1) / 2 = k * (k - 1) / 2 + k := by
        rw [Nat.add_sub_cancel]
        cases k with
        | zero => rfl
        | succ j =>
          rw [Nat.add_sub_cancel, show (j + 1 + 1) * (j + 1) = (j + 1) * j + (j + 1) * 2 by ring,
            Nat.add_mul_div_right _ _ (by norm_num)]
      rw [e, mul_pow, pow_add, pow_succ]
      ring

theorem lm_still {o : VarOps S} {P : Prob K S} {L : Lin} (hL : P.linearize P.vars = .ok L) (he : L.e = 0)
    (hn : 0 < L.n) (htau : 0 ≤ P.cfg.tau) (hd : L.A.det ≠ 0) (hz : ZeroStep o P L.n P.vars) :
    solveLM o P = .ok { P with costHistory := [L.cost, L.cost], info := some ⟨L.n, L.A⟩ } := by
  obtain ⟨mx, hmx⟩ : ∃ mx, npMax (fun j => L.A j j) = .ok mx := by
    unfold npMax
    rw [dif_pos hn]
    exact ⟨_, rfl⟩
  have h0 : 0 ≤ P.cfg.tau * mx := (lmStart_inv hL hmx htau).mu
  obtain ⟨g', d', mu', nu', h1, -⟩ := lm_loop_still (o := o) hL he hn hd hz P.cfg.maxIters none 10 (P.cfg.tau * mx) 2 h0
    (by norm_num)
  unfold solveLM
  rw [hL]
  show (npMax (fun j => L.A j j) >>= _) = _
  rw [hmx]
  show (iterLoop _ _ _ >>= _) = _
  rw [h1]
  show (P.linearize P.vars >>= _) = _
  rw [hL]
  rfl

/-- Residuals that vanish give a zero stacked error. -/
theorem asm_zero {P : Prob K S} {v : List (K × S)} : ∀ {l : List (Residual K S × Loss)} {i : ℕ} {a b : Asm},
    (∀ r ∈ l, ∀ xs err, lookupAll v r.1.keys = .ok xs → r.1.error xs = .ok err → ∀ z ∈ err, z = 0) →
    asmLoop P v i l a = .ok b → (∀ j, a.e j = 0) → ∀ j, b.e j = 0
  | [], i, a, b, h, hb, ha => by cases hb; exact ha
  | (r, ls) :: l, i, a, b, h, hb, ha => by
    unfold asmLoop at hb
    obtain ⟨xs, h1, hb⟩ := bind_ok hb
    obtain ⟨err, h2, hb⟩ := bind_ok hb
    obtain ⟨jacs, h3, hb⟩ := bind_ok hb
    obtain ⟨s, h4, hb⟩ := bind_ok hb
    obtain ⟨e', h5, hb⟩ := bind_ok hb
    obtain ⟨H', h6, hb⟩ := bind_ok hb
    have hz := h (r, ls) (by simp) xs err h1 h2
    refine asm_zero (fun q hq => h q (List.mem_cons_of_mem _ hq)) hb fun j => ?_
    show e' j = 0
    unfold setSeg at h5
    split at h5
    · obtain rfl := Except.ok.inj h5
      simp only
      split
      · rw [List.getD_eq_getElem?_getD, List.getElem?_map]
        generalize (if (err.map _).length = 1 then 0 else j - s.start) = q
        cases hq : err[q]? with
        | none => rfl
        | some z =>
          rw [hz z (List.mem_of_getElem? hq)]
          simp
      · exact ha j
    · cases h5

theorem linearize_zero {P : Prob K S} {v : List (K × S)} {L : Lin}
    (h : ∀ r ∈ P.residuals, ∀ xs err, lookupAll v r.keys = .ok xs → r.error xs = .ok err → ∀ z ∈ err, z = 0)
    (hL : P.linearize v = .ok L) : L.e = 0 := by
  unfold Prob.linearize at hL
  obtain ⟨a, h1, hL⟩ := bind_ok hL
  cases hL
  funext i
  exact asm_zero (fun r hr => h r.1 (List.of_mem_zip hr).1) h1 (fun _ => rfl) i

/-- The linearization does not depend on the solver settings. -/
theorem asm_cfg {P : Prob K S} (c : ProbCfg) {v : List (K × S)} : ∀ (l : List (Residual K S × Loss)) (i : ℕ) (a : Asm),
    asmLoop ({ P with cfg := c } : Prob K S) v i l a = asmLoop P v i l a
  | [], i, a => rfl
  | (r, ls) :: l, i, a => by
    unfold asmLoop
    simp only [asm_cfg c l]

theorem linearize_cfg {P : Prob K S} (c : ProbCfg) (v : List (K × S)) :
    ({ P with cfg := c } : Prob K S).linearize v = P.linearize v := by
  unfold Prob.linearize
  rw [asm_cfg]

theorem colSlices_dof {o o' : VarOps S} (h : ∀ x, o.dof x = o'.dof x) {const : List K} :
    ∀ (v : List (K × S)) (i : ℕ) (d : List (K × Slice)), colSlices o const v i d = colSlices o' const v i d
  | [], i, d => rfl
  | (k, x) :: v, i, d => by
    unfold colSlices
    rw [h x, colSlices_dof h, colSlices_dof h]

theorem started_dof {o o' : VarOps S} (h : ∀ x, o.dof x = o'.dof x) (P : Prob K S) : P.started o = P.started o' := by
  unfold Prob.started Prob.computeSize
  rw [colSlices_dof h]

theorem started_cfg {o : VarOps S} {P P1 : Prob K S} (c : ProbCfg) (h : P.started o = .ok P1) :
    ({ P with cfg := c } : Prob K S).started o = .ok { P1 with cfg := c } := by
  unfold Prob.started Prob.computeSize at h ⊢
  obtain ⟨⟨rs, m⟩, h1, h⟩ := bind_ok h
  cases h
  show (rowSlices P.varsInit P.residuals 0 >>= _) = _
  rw [h1]
  rfl

end Verif
