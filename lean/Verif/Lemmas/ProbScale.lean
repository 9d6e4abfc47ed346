import Verif.Props.Ratios
import Verif.Props.Order

/-!
A `Problem` whose residuals are all multiplied by the same number.
-/

set_option linter.unusedSectionVars false
set_option linter.unusedVariables false
set_option linter.unusedSimpArgs false

namespace Verif

open Matrix

variable {K S : Type} [DecidableEq K]

/-! ### Specification -/

/-- The residual, multiplied by `a`. -/
noncomputable def scaledRes (a : ℝ) (r : Residual K S) : Residual K S where
  keys := r.keys
  error xs := (r.error xs).map (List.map (a * ·))
  jacobians xs flags := (r.jacobians xs flags).map (List.map (Option.map (DMat.scale a)))

/-- The settings, with the tolerance on the gradient in the new units. -/
noncomputable def scaledCfg (a : ℝ) (c : ProbCfg) : ProbCfg := { c with gradTol := c.gradTol.map (a * a * ·) }

/-- A square matrix, multiplied by `c`. -/
noncomputable def SqMat.times (c : ℝ) (A : SqMat) : SqMat := ⟨A.1, c • A.2⟩

/-- The problem with all residuals multiplied by `a`: the costs and the information matrix are multiplied by `a²`, the covariance is divided by
`a²`; everything else is the same. -/
noncomputable def scaledProb (a : ℝ) (P : Prob K S) : Prob K S where
  cfg := scaledCfg a P.cfg
  varsInit := P.varsInit
  constKeys := P.constKeys
  residuals := P.residuals.map (scaledRes a)
  losses := P.losses
  vars := P.vars
  varSlices := P.varSlices
  resSlices := P.resSlices
  sizeErr := P.sizeErr
  sizeState := P.sizeState
  costHistory := P.costHistory.map (a * a * ·)
  info := P.info.map (SqMat.times (a * a))
  cov := P.cov.map (SqMat.times (a * a)⁻¹)

/-! ### Assembly -/

theorem listNorm_times (a : ℝ) (l : List ℝ) : listNorm (l.map (a * ·)) = |a| * listNorm l := by
  unfold listNorm
  rw [List.map_map]
  have : ((fun x => x * x) ∘ (a * ·)) = fun x : ℝ => (a * a) * (x * x) := by funext x; simp only [Function.comp]; ring
  rw [this, List.sum_map_mul_left, Real.sqrt_mul (mul_self_nonneg a), Real.sqrt_mul_self_eq_abs]

theorem rowSlices_times (a : ℝ) (vars : List (K × S)) : ∀ (rs : List (Residual K S)) (i : ℕ),
    rowSlices vars (rs.map (scaledRes a)) i = rowSlices vars rs i
  | [], i => rfl
  | r :: rs, i => by
    rw [List.map_cons]
    unfold rowSlices
    show (lookupAll vars r.keys >>= _) = _
    cases lookupAll vars r.keys with
    | error => rfl
    | ok xs =>
      rw [ok_bindE, ok_bindE]
      show (((r.error xs).map (List.map (a * ·))) >>= _) = _
      cases r.error xs with
      | error => rfl
      | ok e =>
        show (rowSlices vars (rs.map (scaledRes a)) (i + (e.map (a * ·)).length) >>= _) = _
        rw [List.length_map, rowSlices_times a vars rs, ok_bindE]

theorem setSeg_times (a : ℝ) (n : ℕ) (e : ℕ → ℝ) (s : Slice) (v : List ℝ) :
    setSeg n (fun i => a * e i) s (v.map (a * ·)) = (setSeg n e s v).map fun e' i => a * e' i := by
  unfold setSeg
  rw [List.length_map]
  by_cases h : v.length = s.len n ∨ v.length = 1
  · rw [if_pos h, if_pos h]
    show Except.ok _ = Except.ok _
    congr 1
    funext i
    show (if _ then _ else _) = a * (if _ then _ else _)
    by_cases hi : s.start ≤ i ∧ i < s.stop
    · rw [if_pos hi, if_pos hi]
      generalize (if v.length = 1 then 0 else i - s.start) = j
      rw [List.getD_eq_getElem?_getD, List.getD_eq_getElem?_getD, List.getElem?_map]
      cases v[j]? <;> simp
    · rw [if_neg hi, if_neg hi]
  · rw [if_neg h, if_neg h]; rfl

theorem setBlock_times (a : ℝ) (A B : DMat) (s1 s2 : Slice) :
    (A.scale a).setBlock s1 s2 (B.scale a) = (A.setBlock s1 s2 B).map (DMat.scale a) := by
  unfold DMat.setBlock
  show (if (B.rows = s1.len A.rows ∨ B.rows = 1) ∧ (B.cols = s2.len A.cols ∨ B.cols = 1) then _ else _) = _
  by_cases h : (B.rows = s1.len A.rows ∨ B.rows = 1) ∧ (B.cols = s2.len A.cols ∨ B.cols = 1)
  · rw [if_pos h, if_pos h]
    show Except.ok _ = Except.ok _
    congr 1
    unfold DMat.scale
    simp only
    congr 1
    funext i j
    split <;> rfl
  · rw [if_neg h, if_neg h]; rfl

theorem placeJacs_times (a : ℝ) (vs : List (K × Slice)) (rs : Slice) (w : ℝ) : ∀ (ks : List K) (js : List (Option DMat)) (H : DMat),
    placeJacs vs rs w ks (js.map (Option.map (DMat.scale a))) (H.scale a) = (placeJacs vs rs w ks js H).map (DMat.scale a)
  | [], js, H => by unfold placeJacs; rfl
  | k :: ks, [], H => by unfold placeJacs; rfl
  | k :: ks, none :: js, H => by
    rw [List.map_cons]
    show placeJacs vs rs w (k :: ks) (none :: _) _ = _
    unfold placeJacs
    exact placeJacs_times a vs rs w ks js H
  | k :: ks, some J :: js, H => by
    rw [List.map_cons]
    show placeJacs vs rs w (k :: ks) (some (J.scale a) :: _) _ = _
    unfold placeJacs
    cases dictGet vs k with
    | error => rfl
    | ok cs =>
      have e : (J.scale a).scale w = (J.scale w).scale a := by
        unfold DMat.scale
        simp only
        congr 1
        funext i j
        ring
      rw [ok_bindE, ok_bindE, e, setBlock_times]
      cases H.setBlock rs cs (J.scale w) with
      | error => rfl
      | ok H' =>
        show placeJacs vs rs w ks _ (H'.scale a) = _
        rw [placeJacs_times a vs rs w ks js H']
        rfl

/-- The stacked error, Jacobian and cost in the new units. -/
noncomputable def Asm.times (a : ℝ) (A : Asm) : Asm := ⟨fun i => a * A.e i, A.H.scale a, a * a * A.cost⟩

theorem asmLoop_times (a : ℝ) (P : Prob K S) (vars : List (K × S)) : ∀ (l : List (Residual K S × Loss)) (i : ℕ) (A : Asm),
    (∀ p ∈ l, p.2 = l2Loss) →
    asmLoop (scaledProb a P) vars i (l.map fun p => (scaledRes a p.1, p.2)) (A.times a) = (asmLoop P vars i l A).map (Asm.times a)
  | [], i, A, _ => rfl
  | (r, ls) :: l, i, A, h => by
    have hl : ls = l2Loss := h (r, ls) List.mem_cons_self
    subst hl
    rw [List.map_cons]
    unfold asmLoop
    show (lookupAll vars r.keys >>= _) = _
    cases lookupAll vars r.keys with
    | error => rfl
    | ok xs =>
      rw [ok_bindE, ok_bindE]
      show ((r.error xs).map (List.map (a * ·)) >>= _) = _
      cases r.error xs with
      | error => rfl
      | ok err =>
        show ((r.jacobians xs (r.keys.map fun k => !(P.constKeys.contains k))).map _ >>= _) = _
        rw [ok_bindE]
        cases r.jacobians xs (r.keys.map fun k => !(P.constKeys.contains k)) with
        | error => rfl
        | ok js =>
          show (pyGet P.resSlices i >>= _) = Except.map _ (pyGet P.resSlices i >>= _)
          cases (pyGet P.resSlices i : Except Err Slice) with
          | error => rfl
          | ok s =>
            rw [ok_bindE, ok_bindE]
            have ew : ∀ x, l2Loss.weight x = 1 := fun _ => rfl
            have e1 : (err.map (a * ·)).map (Real.sqrt 1 * ·) = (err.map (Real.sqrt 1 * ·)).map (a * ·) := by
              rw [List.map_map, List.map_map]
              congr 1
              funext x
              simp
            rw [ew, ew, e1]
            show (setSeg P.sizeErr (fun i => a * A.e i) s _ >>= _) = _
            rw [setSeg_times]
            cases setSeg P.sizeErr A.e s (err.map (Real.sqrt 1 * ·)) with
            | error => rfl
            | ok e' =>
              rw [ok_bindE]
              show (placeJacs P.varSlices s (Real.sqrt 1) r.keys (js.map (Option.map (DMat.scale a))) (A.H.scale a) >>= _) = _
              rw [placeJacs_times]
              cases placeJacs P.varSlices s (Real.sqrt 1) r.keys js A.H with
              | error => rfl
              | ok H' =>
                have ih := asmLoop_times a P vars l (i + 1) ⟨e', H', A.cost + l2Loss.loss (listNorm err)⟩
                  fun p hp => h p (List.mem_cons_of_mem _ hp)
                rw [ok_bindE, ← ih]
                show asmLoop (scaledProb a P) vars (i + 1) _ ⟨_, _, a * a * A.cost + l2Loss.loss (listNorm (err.map (a * ·)))⟩ = _
                have e2 : a * a * A.cost + l2Loss.loss (listNorm (err.map (a * ·))) = a * a * (A.cost + l2Loss.loss (listNorm err)) := by
                  rw [listNorm_times]
                  show a * a * A.cost + 1 / 2 * (|a| * _) * (|a| * _) = a * a * (A.cost + 1 / 2 * _ * _)
                  have := abs_mul_abs_self a
                  linear_combination (1 / 2 * listNorm err * listNorm err) * this
                rw [e2]
                rfl

/-- The linearization in the new units. -/
noncomputable def Lin.times (a : ℝ) (L : Lin) : Lin := ⟨L.m, L.n, a • L.e, a • L.H, a * a * L.cost⟩

theorem zip_times (a : ℝ) (P : Prob K S) :
    (scaledProb a P).residuals.zip (scaledProb a P).losses = (P.residuals.zip P.losses).map fun p => (scaledRes a p.1, p.2) := by
  show (P.residuals.map (scaledRes a)).zip P.losses = _
  rw [List.zip_map_left]
  rfl

theorem linearize_times (a : ℝ) (P : Prob K S) (hl : ∀ l ∈ P.losses, l = l2Loss) (vars : List (K × S)) :
    (scaledProb a P).linearize vars = (P.linearize vars).map (Lin.times a) := by
  unfold Prob.linearize
  have h0 : (⟨fun _ => 0, DMat.zeros (scaledProb a P).sizeErr (scaledProb a P).sizeState, 0⟩ : Asm) =
      Asm.times a ⟨fun _ => 0, DMat.zeros P.sizeErr P.sizeState, 0⟩ := by
    unfold Asm.times DMat.scale DMat.zeros
    simp only [mul_zero]
    rfl
  rw [zip_times, h0, asmLoop_times a P vars _ 0 _ fun p hp => hl _ (List.of_mem_zip hp).2]
  cases asmLoop P vars 0 (P.residuals.zip P.losses) ⟨fun _ => 0, DMat.zeros P.sizeErr P.sizeState, 0⟩ with
  | error => rfl
  | ok A => rfl

/-! ### The normal equations -/

theorem A_times (a : ℝ) (L : Lin) : (L.times a).A = (a * a) • L.A := by
  show (a • L.H)ᵀ * (a • L.H) = (a * a) • (L.Hᵀ * L.H)
  rw [transpose_smul, Matrix.smul_mul, Matrix.mul_smul, smul_smul]

theorem b_times (a : ℝ) (L : Lin) : (L.times a).b = (a * a) • L.b := by
  show (a • L.H)ᵀ *ᵥ (a • L.e) = (a * a) • (L.Hᵀ *ᵥ L.e)
  rw [transpose_smul, smul_mulVec, mulVec_smul, smul_smul]

theorem spsolve_times {m : ℕ} {c : ℝ} (hc : c ≠ 0) (A : Mat m m) (b : Vec m) : spsolve (c • A) (c • b) = spsolve A b := by
  unfold spsolve
  by_cases h : A.det = 0
  · rw [if_pos h, if_pos ((det_smul_zero hc A).2 h)]
  · rw [if_neg h, if_neg (mt (det_smul_zero hc A).1 h), inv_smul_det hc h, ← smul_neg, smul_mulVec, mulVec_smul, smul_smul,
      inv_mul_cancel₀ hc, one_smul]

theorem npMax_times {m : ℕ} {c : ℝ} (hc : 0 ≤ c) (v : Vec m) : npMax (fun i => c * v i) = (npMax v).map (c * ·) := by
  unfold npMax
  by_cases h : 0 < m
  · rw [dif_pos h, dif_pos h]
    show Except.ok _ = Except.ok _
    congr 1
    exact (Finset.apply_sup'_eq_sup'_comp _ (c * ·) fun x y => mul_max_of_nonneg x y hc).symm
  · rw [dif_neg h, dif_neg h]; rfl

theorem gradNorm_times (a : ℝ) (L : Lin) : (L.times a).gradNorm = L.gradNorm.map (a * a * ·) := by
  unfold Lin.gradNorm
  rw [← npMax_times (mul_self_nonneg a)]
  congr 1
  funext j
  have h : ∀ {m k : ℕ} (e : Vec m) (H : Mat m k) (j : Fin k), |((a • e) ᵥ* (a • H)) j| = a * a * |(e ᵥ* H) j| := by
    intro m k e H j
    rw [vecMul_smul, smul_vecMul, smul_smul, Pi.smul_apply, smul_eq_mul, abs_mul, abs_mul_self]
  exact h L.e L.H j

theorem deltaCostOf_times {c : ℝ} (hc : 0 ≤ c) : ∀ (l : List ℝ) (old : Option ℝ),
    deltaCostOf (l.map (c * ·)) (old.map (c * ·)) = (deltaCostOf l old).map (c * ·)
  | [], old => rfl
  | [_], old => rfl
  | x :: y :: l, old => by
    show some |c * x - c * y| = some (c * |x - y|)
    rw [← mul_sub, abs_mul, abs_of_nonneg hc]

theorem isConverged_times {a : ℝ} (ha : a ≠ 0) (cfg : ProbCfg) (dc : Option ℝ) (cost dx : ℝ) (g : Option ℝ) :
    isConverged (scaledCfg a cfg) (dc.map (a * a * ·)) (a * a * cost) dx (g.map (a * a * ·)) = isConverged cfg dc cost dx g := by
  have hc : 0 < a * a := mul_self_pos.2 ha
  unfold isConverged
  cases dc with
  | none => rfl
  | some dc =>
    show decide _ = decide _
    have e1 : (if a * a * cost ≠ 0 then a * a * dc / (a * a * cost) else 0) = if cost ≠ 0 then dc / cost else 0 := by
      by_cases h : cost = 0
      · simp [h]
      · rw [if_pos (mul_ne_zero hc.ne' h), if_pos h, mul_div_mul_left _ _ hc.ne']
    have e2 : a * a * cost = 0 ↔ cost = 0 := ⟨fun h => (mul_eq_zero.1 h).resolve_left hc.ne', fun h => by rw [h, mul_zero]⟩
    have e3 : (∃ t ∈ (scaledCfg a cfg).gradTol, ∃ x ∈ g.map (a * a * ·), x < t) ↔ ∃ t ∈ cfg.gradTol, ∃ x ∈ g, x < t := by
      show (∃ t ∈ cfg.gradTol.map (a * a * ·), _) ↔ _
      cases cfg.gradTol with
      | none => simp
      | some t =>
        cases g with
        | none => simp
        | some g =>
          simp only [Option.map_some, Option.mem_def, Option.some.injEq, exists_eq_left']
          exact mul_lt_mul_iff_right₀ hc
    rw [e1]
    congr 1
    exact propext (or_congr_right (or_congr_right (or_congr e2 (or_congr_right e3))))

/-! ### The solvers -/

/-- The local variables of the solver in the new units. -/
noncomputable def LoopState.times (a : ℝ) (s : LoopState K S) : LoopState K S where
  vars := s.vars
  lin := s.lin.times a
  costs := s.costs.map (a * a * ·)
  deltaCost := s.deltaCost.map (a * a * ·)
  gradNorm := s.gradNorm.map (a * a * ·)
  dx := s.dx
  info := s.info.map (SqMat.times (a * a))
  mu := a * a * s.mu
  nu := s.nu

theorem headD_times (c : ℝ) (l : List ℝ) : (l.map (c * ·)).headD 0 = c * l.headD 0 := by
  cases l <;> simp

theorem gnStep_times {a : ℝ} (ha : a ≠ 0) (o : VarOps S) (P : Prob K S) (hl : ∀ l ∈ P.losses, l = l2Loss) (s : LoopState K S) :
    gnStep o (scaledProb a P) (s.times a) = (gnStep o P s).map fun r => (r.1.times a, r.2) := by
  have hc : a * a ≠ 0 := (mul_self_pos.2 ha).ne'
  unfold gnStep
  have e0 : isConverged (scaledProb a P).cfg (s.times a).deltaCost ((s.times a).costs.headD 0) (s.times a).dx (s.times a).gradNorm =
      isConverged P.cfg s.deltaCost (s.costs.headD 0) s.dx s.gradNorm := by
    refine Eq.trans ?_ (isConverged_times ha P.cfg s.deltaCost (s.costs.headD 0) s.dx s.gradNorm)
    rw [← headD_times]
    rfl
  rw [e0]
  split
  · rfl
  · have e1 : spsolve (s.times a).lin.A (s.times a).lin.b = spsolve s.lin.A s.lin.b := by
      show spsolve (s.lin.times a).A (s.lin.times a).b = _
      rw [A_times, b_times]
      exact spsolve_times hc _ _
    rw [e1]
    cases spsolve s.lin.A s.lin.b with
    | error => exact Eq.trans (b := Except.error _) rfl rfl
    | ok δ =>
      show (correctStates o P.constKeys P.varSlices (List.ofFn δ) s.vars >>= _) =
        Except.map _ (correctStates o P.constKeys P.varSlices (List.ofFn δ) s.vars >>= _)
      cases correctStates o P.constKeys P.varSlices (List.ofFn δ) s.vars with
      | error => rfl
      | ok v =>
        rw [ok_bindE, ok_bindE, linearize_times a P hl]
        cases P.linearize v with
        | error => rfl
        | ok L =>
          show ((L.times a).gradNorm >>= _) = Except.map _ (L.gradNorm >>= _)
          rw [gradNorm_times]
          cases L.gradNorm with
          | error => rfl
          | ok g =>
            show Except.ok _ = Except.ok _
            congr 2
            unfold LoopState.times
            simp only [Option.map_some, List.map_cons]
            congr 1
            · exact deltaCostOf_times (mul_self_nonneg a) (L.cost :: s.costs) s.deltaCost
            · show some (⟨s.lin.n, (s.lin.times a).A⟩ : SqMat) = some ⟨s.lin.n, (a * a) • s.lin.A⟩
              rw [A_times]

theorem iterLoop_times (a : ℝ) {f g : LoopState K S → Except Err (LoopState K S × Bool)}
    (h : ∀ s, f (s.times a) = (g s).map fun r => (r.1.times a, r.2)) : ∀ (k : ℕ) (s : LoopState K S),
    iterLoop f k (s.times a) = (iterLoop g k s).map (LoopState.times a)
  | 0, s => rfl
  | k + 1, s => by
    unfold iterLoop
    rw [h]
    cases g s with
    | error => rfl
    | ok r =>
      show (if r.2 then Except.ok (r.1.times a) else iterLoop f k (r.1.times a)) = Except.map _ (if r.2 then Except.ok r.1 else iterLoop g k r.1)
      split
      · rfl
      · exact iterLoop_times a h k r.1

theorem solveGN_times {a : ℝ} (ha : a ≠ 0) (o : VarOps S) (P : Prob K S) (hl : ∀ l ∈ P.losses, l = l2Loss) :
    solveGN o (scaledProb a P) = (solveGN o P).map (scaledProb a) := by
  unfold solveGN
  show ((scaledProb a P).linearize P.vars >>= _) = _
  rw [linearize_times a P hl]
  cases P.linearize P.vars with
  | error => rfl
  | ok L =>
    show (iterLoop (gnStep o (scaledProb a P)) P.cfg.maxIters ⟨P.vars, L.times a, [a * a * L.cost], none, none, 10, none, 0, 0⟩ >>= _) =
      Except.map _ (iterLoop (gnStep o P) P.cfg.maxIters ⟨P.vars, L, [L.cost], none, none, 10, none, 0, 0⟩ >>= _)
    have e : (⟨P.vars, L.times a, [a * a * L.cost], none, none, 10, none, 0, 0⟩ : LoopState K S) =
        LoopState.times a ⟨P.vars, L, [L.cost], none, none, 10, none, 0, 0⟩ := by
      unfold LoopState.times
      simp
    rw [e, iterLoop_times a (gnStep_times ha o P hl)]
    cases iterLoop (gnStep o P) P.cfg.maxIters ⟨P.vars, L, [L.cost], none, none, 10, none, 0, 0⟩ with
    | error => rfl
    | ok s =>
      show ((scaledProb a P).linearize s.vars >>= _) = Except.map _ (P.linearize s.vars >>= _)
      rw [linearize_times a P hl]
      cases P.linearize s.vars with
      | error => rfl
      | ok Lf =>
        rw [ok_bindE]
        obtain ⟨vars, lin, costs, dc, gn, dx, info, mu, nu⟩ := s
        cases info with
        | none => rfl
        | some A =>
          show Except.ok _ = Except.ok _
          congr 1
          unfold scaledProb
          simp only [LoopState.times, Lin.times, List.map_cons, List.map_reverse, Option.map_some]

theorem gainPositive_times {c : ℝ} (hc : 0 < c) (x y : ℝ) : gainPositive (c * x) (c * y) = gainPositive x y := by
  unfold gainPositive
  by_cases h : y = 0
  · rw [if_pos h, if_pos (by rw [h, mul_zero])]
    congr 1
    exact propext (mul_pos_iff_of_pos_left hc)
  · rw [if_neg h, if_neg (mul_ne_zero hc.ne' h), mul_div_mul_left _ _ hc.ne']

theorem gainFactor_times {c : ℝ} (hc : c ≠ 0) (x y : ℝ) : gainFactor (c * x) (c * y) = gainFactor x y := by
  unfold gainFactor
  by_cases h : y = 0
  · rw [if_pos h, if_pos (by rw [h, mul_zero])]
  · rw [if_neg h, if_neg (mul_ne_zero hc h), mul_div_mul_left _ _ hc]

theorem lmUpdate_times {a : ℝ} (ha : a ≠ 0) (s : LoopState K S) (dx : ℝ) (vt : List (K × S)) (Lt : Lin) (den g : ℝ) :
    lmUpdate (s.times a) dx vt (Lt.times a) (a * a * den) (a * a * g) = (lmUpdate s dx vt Lt den g).times a := by
  have hc : 0 < a * a := mul_self_pos.2 ha
  unfold lmUpdate
  have e : (s.times a).costs.headD 0 - (Lt.times a).cost = a * a * (s.costs.headD 0 - Lt.cost) := by
    show (s.costs.map (a * a * ·)).headD 0 - a * a * Lt.cost = _
    rw [headD_times]; ring
  simp only [e, gainPositive_times hc, gainFactor_times hc.ne']
  split
  · unfold LoopState.times
    simp only [Option.map_some, List.map_cons]
    congr 1
    · exact deltaCostOf_times (mul_self_nonneg a) (Lt.cost :: s.costs) s.deltaCost
    · show some (⟨Lt.n, (Lt.times a).A⟩ : SqMat) = some ⟨Lt.n, (a * a) • Lt.A⟩
      rw [A_times]
    · ring
  · unfold LoopState.times
    simp only [Option.map_some]
    congr 1
    · exact deltaCostOf_times (mul_self_nonneg a) s.costs s.deltaCost
    · ring

theorem gainDen_times {m : ℕ} (c : ℝ) (δ b : Vec m) (mu : ℝ) : gainDen δ (c • b) (c * mu) = c * gainDen δ b mu := by
  unfold gainDen
  rw [← smul_smul, ← smul_sub, dotProduct_smul, smul_eq_mul]
  ring

theorem lmStep_times {a : ℝ} (ha : a ≠ 0) (o : VarOps S) (P : Prob K S) (hl : ∀ l ∈ P.losses, l = l2Loss) (s : LoopState K S) :
    lmStep o (scaledProb a P) (s.times a) = (lmStep o P s).map fun r => (r.1.times a, r.2) := by
  have hc : a * a ≠ 0 := (mul_self_pos.2 ha).ne'
  unfold lmStep
  have e1 : spsolve ((s.times a).lin.A + (s.times a).mu • (1 : Mat _ _)) (s.times a).lin.b =
      spsolve (s.lin.A + s.mu • (1 : Mat _ _)) s.lin.b := by
    have gen : ∀ (A' : Mat s.lin.n s.lin.n) (b' : Vec s.lin.n), A' = (a * a) • s.lin.A → b' = (a * a) • s.lin.b →
        spsolve (A' + (a * a * s.mu) • (1 : Mat s.lin.n s.lin.n)) b' = spsolve (s.lin.A + s.mu • (1 : Mat _ _)) s.lin.b := by
      rintro _ _ rfl rfl
      rw [mul_smul (a * a) s.mu, ← smul_add]
      exact spsolve_times hc _ _
    exact gen _ _ (A_times a s.lin) (b_times a s.lin)
  rw [e1]
  cases spsolve (s.lin.A + s.mu • (1 : Mat _ _)) s.lin.b with
  | error => exact Eq.trans (b := Except.error _) rfl rfl
  | ok δ =>
    have e0 : isConverged (scaledProb a P).cfg (s.times a).deltaCost ((s.times a).costs.headD 0) (vecNorm δ) (s.times a).gradNorm =
        isConverged P.cfg s.deltaCost (s.costs.headD 0) (vecNorm δ) s.gradNorm := by
      refine Eq.trans ?_ (isConverged_times ha P.cfg s.deltaCost (s.costs.headD 0) (vecNorm δ) s.gradNorm)
      rw [← headD_times]
      rfl
    rw [ok_bindE]
    refine (if_congr (iff_of_eq (congrArg (· = true) e0)) rfl rfl).trans ?_
    split
    · rfl
    · show (correctStates o P.constKeys P.varSlices (List.ofFn δ) s.vars >>= _) =
        Except.map _ (correctStates o P.constKeys P.varSlices (List.ofFn δ) s.vars >>= _)
      cases correctStates o P.constKeys P.varSlices (List.ofFn δ) s.vars with
      | error => rfl
      | ok v =>
        rw [ok_bindE, ok_bindE, linearize_times a P hl]
        cases P.linearize v with
        | error => rfl
        | ok L =>
          show ((L.times a).gradNorm >>= _) = Except.map _ (L.gradNorm >>= _)
          rw [gradNorm_times]
          cases L.gradNorm with
          | error => rfl
          | ok g =>
            show Except.ok _ = Except.ok _
            congr 2
            have e2 : gainDen δ (s.times a).lin.b (s.times a).mu = a * a * gainDen δ s.lin.b s.mu := by
              show gainDen δ (s.lin.times a).b (a * a * s.mu) = _
              rw [b_times]
              exact gainDen_times _ _ _ _
            exact (congrArg (fun d => lmUpdate (s.times a) (vecNorm δ) v (L.times a) d (a * a * g)) e2).trans
              (lmUpdate_times ha s (vecNorm δ) v L _ g)

theorem solveLM_times {a : ℝ} (ha : a ≠ 0) (o : VarOps S) (P : Prob K S) (hl : ∀ l ∈ P.losses, l = l2Loss) :
    solveLM o (scaledProb a P) = (solveLM o P).map (scaledProb a) := by
  unfold solveLM
  show ((scaledProb a P).linearize P.vars >>= _) = _
  rw [linearize_times a P hl]
  cases P.linearize P.vars with
  | error => rfl
  | ok L =>
    have e0 : npMax (fun j => (L.times a).A j j) = (npMax fun j => L.A j j).map (a * a * ·) := by
      rw [← npMax_times (mul_self_nonneg a)]
      rw [A_times]
      rfl
    show (npMax (fun j => (L.times a).A j j) >>= _) = Except.map _ (npMax (fun j => L.A j j) >>= _)
    rw [e0]
    cases (npMax fun j => L.A j j) with
    | error => rfl
    | ok mx =>
      show (iterLoop (lmStep o (scaledProb a P)) P.cfg.maxIters ⟨P.vars, L.times a, [a * a * L.cost], none, none, 10,
          some ⟨_, (L.times a).A⟩, P.cfg.tau * (a * a * mx), 2⟩ >>= _) =
        Except.map _ (iterLoop (lmStep o P) P.cfg.maxIters ⟨P.vars, L, [L.cost], none, none, 10, some ⟨_, L.A⟩, P.cfg.tau * mx, 2⟩ >>= _)
      have e : (⟨P.vars, L.times a, [a * a * L.cost], none, none, 10, some ⟨L.n, (L.times a).A⟩, P.cfg.tau * (a * a * mx), 2⟩ : LoopState K S) =
          LoopState.times a ⟨P.vars, L, [L.cost], none, none, 10, some ⟨_, L.A⟩, P.cfg.tau * mx, 2⟩ := by
        unfold LoopState.times
        simp only [Option.map_some, Option.map_none, List.map_cons, List.map_nil]
        congr 1
        · show some (⟨L.n, (L.times a).A⟩ : SqMat) = some ⟨L.n, (a * a) • L.A⟩
          rw [A_times]
        · ring
      refine (congrArg (fun q => iterLoop (lmStep o (scaledProb a P)) P.cfg.maxIters q >>= _) e).trans ?_
      rw [iterLoop_times a (lmStep_times ha o P hl)]
      cases iterLoop (lmStep o P) P.cfg.maxIters ⟨P.vars, L, [L.cost], none, none, 10, some ⟨_, L.A⟩, P.cfg.tau * mx, 2⟩ with
      | error => rfl
      | ok s =>
        show ((scaledProb a P).linearize s.vars >>= _) = Except.map _ (P.linearize s.vars >>= _)
        rw [linearize_times a P hl]
        cases P.linearize s.vars with
        | error => rfl
        | ok Lf =>
          show Except.ok _ = Except.ok _
          congr 1
          unfold scaledProb
          simp only [LoopState.times, Lin.times, List.map_cons, List.map_reverse]

/-- `solve`. -/
theorem solve_times {a : ℝ} (ha : a ≠ 0) (o : VarOps S) (P : Prob K S) (hl : ∀ l ∈ P.losses, l = l2Loss) :
    (scaledProb a P).solve o = (P.solve o).map (scaledProb a) := by
  unfold Prob.solve
  have h0 : ({ scaledProb a P with vars := (scaledProb a P).varsInit } : Prob K S).computeSize o =
      (({ P with vars := P.varsInit } : Prob K S).computeSize o).map (scaledProb a) := by
    unfold Prob.computeSize
    show (rowSlices P.varsInit (P.residuals.map (scaledRes a)) 0 >>= _) = Except.map _ (rowSlices P.varsInit P.residuals 0 >>= _)
    rw [rowSlices_times]
    cases rowSlices P.varsInit P.residuals 0 with
    | error => rfl
    | ok t => rfl
  have hL : ∀ P1, ({ P with vars := P.varsInit } : Prob K S).computeSize o = .ok P1 → ∀ l ∈ P1.losses, l = l2Loss := by
    intro P1 h
    unfold Prob.computeSize at h
    obtain ⟨t, -, h⟩ := bind_ok h
    cases h
    exact hl
  rw [h0]
  cases h1 : ({ P with vars := P.varsInit } : Prob K S).computeSize o with
  | error => rfl
  | ok P1 =>
    show (if P.cfg.solver = "GN" then solveGN o (scaledProb a P1) else if P.cfg.solver = "LM" then solveLM o (scaledProb a P1) else
      Except.ok (scaledProb a P1)) = Except.map _ (if P.cfg.solver = "GN" then solveGN o P1 else if P.cfg.solver = "LM" then solveLM o P1 else
      Except.ok P1)
    split
    · exact solveGN_times ha o P1 (hL _ h1)
    · split
      · exact solveLM_times ha o P1 (hL _ h1)
      · rfl

/-! ### Covariance -/

theorem computeCovariance_times {a : ℝ} (ha : a ≠ 0) (P : Prob K S) :
    (scaledProb a P).computeCovariance = scaledProb a P.computeCovariance := by
  have hc : a * a ≠ 0 := (mul_self_pos.2 ha).ne'
  obtain ⟨cfg, vi, ck, re, lo, va, vs, rs, se, ss, ch, info, cov⟩ := P
  cases info with
  | none => rfl
  | some A =>
    unfold Prob.computeCovariance
    show (if ((a * a) • A.2).det = 0 then _ else _) = scaledProb a (if A.2.det = 0 then _ else _)
    by_cases h : A.2.det = 0
    · rw [if_pos h, if_pos ((det_smul_zero hc _).2 h)]
    · rw [if_neg h, if_neg (mt (det_smul_zero hc _).1 h)]
      unfold scaledProb
      simp only [Option.map_some]
      congr 2
      show (⟨A.1, ((a * a) • A.2)⁻¹⟩ : SqMat) = ⟨A.1, (a * a)⁻¹ • A.2⁻¹⟩
      rw [inv_smul_det hc h]

theorem block_times (c : ℝ) (M : SqMat) (s1 s2 : Slice) : (M.times c).block s1 s2 = (M.block s1 s2).scale c := by
  unfold SqMat.block DMat.block DMat.scale SqMat.times
  simp only
  congr 1
  funext i j
  split
  · rfl
  · rw [mul_zero]

theorem covBlock_times {a : ℝ} (ha : a ≠ 0) (P : Prob K S) (k1 k2 : K) :
    (scaledProb a P).getCovarianceBlock k1 k2 =
      (P.getCovarianceBlock k1 k2).map fun r => (r.1.map (DMat.scale (a * a)⁻¹), scaledProb a r.2) := by
  have key : ∀ Q : Prob K S, (match (scaledProb a Q).varSlices.lookup k1, (scaledProb a Q).varSlices.lookup k2 with
      | some s1, some s2 =>
        match (scaledProb a Q).cov with
        | none => (.error .typeError : Except Err (Option DMat × Prob K S))
        | some M => .ok (some (M.block s1 s2), scaledProb a Q)
      | _, _ => .ok (none, scaledProb a Q)) = Except.map (fun r => (r.1.map (DMat.scale (a * a)⁻¹), scaledProb a r.2))
      (match Q.varSlices.lookup k1, Q.varSlices.lookup k2 with
      | some s1, some s2 =>
        match Q.cov with
        | none => (.error .typeError : Except Err (Option DMat × Prob K S))
        | some M => .ok (some (M.block s1 s2), Q)
      | _, _ => .ok (none, Q)) := by
    intro Q
    show (match Q.varSlices.lookup k1, Q.varSlices.lookup k2 with
      | some s1, some s2 =>
        match Q.cov.map (SqMat.times (a * a)⁻¹) with
        | none => (.error .typeError : Except Err (Option DMat × Prob K S))
        | some M => .ok (some (M.block s1 s2), scaledProb a Q)
      | _, _ => .ok (none, scaledProb a Q)) = _
    cases Q.varSlices.lookup k1 with
    | none => rfl
    | some s1 =>
      cases Q.varSlices.lookup k2 with
      | none => rfl
      | some s2 =>
        cases Q.cov with
        | none => rfl
        | some M =>
          show Except.ok (some ((M.times (a * a)⁻¹).block s1 s2), scaledProb a Q) = Except.ok (some ((M.block s1 s2).scale (a * a)⁻¹), scaledProb a Q)
          rw [block_times]
  have e : (if (scaledProb a P).cov.isNone then (scaledProb a P).computeCovariance else scaledProb a P) =
      scaledProb a (if P.cov.isNone then P.computeCovariance else P) := by
    have : (scaledProb a P).cov.isNone = P.cov.isNone := by
      show (P.cov.map _).isNone = _
      cases P.cov <;> rfl
    rw [this, computeCovariance_times ha]
    split <;> rfl
  unfold Prob.getCovarianceBlock
  simp only [e]
  exact key _

end Verif
