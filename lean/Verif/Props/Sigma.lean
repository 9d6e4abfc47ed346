import Verif.Lemmas.Sigma
import Verif.Props.Ekf

/-! Properties of `generate_sigmapoints`, `mean_state` and `SigmaPointKalmanFilter` (C13-C16). -/

set_option linter.unusedVariables false
set_option linter.unusedSectionVars false

namespace Verif

open Matrix

variable {V U : Type} {n k : ℕ}

/-- **C13.** For each of the three methods and every `dof ≥ 1`, sigma points exist, have positive weights
summing to one, mean zero and second moment the identity. -/
theorem C13_sigma_moments (hn : n ≠ 0) (method : String)
    (hm : method ∈ ["unscented", "cubature", "gh"]) :
    ∃ σ : List (ℝ × Vec n), generateSigmapoints n method = .ok σ ∧
      (∀ p ∈ σ, 0 < p.1) ∧
      (σ.map fun p => p.1).sum = 1 ∧
      (∀ a, (σ.map fun p => p.1 * p.2 a).sum = 0) ∧
      (∀ a b, (σ.map fun p => p.1 * (p.2 a * p.2 b)).sum = if a = b then 1 else 0) := by
  obtain ⟨σ, hσ⟩ := generate_total hn hm
  obtain ⟨⟨h0, h1, h2⟩, hpos, _⟩ := generate_ok hσ
  refine ⟨σ, hσ, hpos, ?_, ?_, ?_⟩
  · simpa [wsum] using h0
  · intro a
    have := wsum_linear (LinearMap.proj (R := ℝ) a : Vec n →ₗ[ℝ] ℝ) σ (fun s => s)
    rw [h1] at this
    simpa [wsum] using this
  · intro a b
    have := wsum_linear (Matrix.entryLinearMap ℝ ℝ a b : Mat n n →ₗ[ℝ] ℝ) σ (fun s => vecMulVec s s)
    rw [h2] at this
    simpa [wsum, vecMulVec_apply, Matrix.one_apply] using this

/-- **C13.** The number of points: `2n + 1`, `2n` and `3^n`. -/
theorem C13_sigma_count (hn : n ≠ 0) :
    (∃ σ : List (ℝ × Vec n), generateSigmapoints n "unscented" = .ok σ ∧ σ.length = 2 * n + 1) ∧
    (∃ σ : List (ℝ × Vec n), generateSigmapoints n "cubature" = .ok σ ∧ σ.length = 2 * n) ∧
    (∃ σ : List (ℝ × Vec n), generateSigmapoints n "gh" = .ok σ ∧ σ.length = 3 ^ n) := by
  refine ⟨⟨unscentedPoints n, ?_, ?_⟩, ⟨cubaturePoints n, ?_, ?_⟩, ⟨ghPoints n, ?_, ?_⟩⟩
  all_goals simp [generateSigmapoints, unscentedPoints, cubaturePoints, ghPoints, hn]
  all_goals omega

/-- **C13.** Any other method name is refused (the local `sigma_points` is unbound at the return). -/
theorem C13_unknown_method (method : String) (hm : method ∉ ["unscented", "cubature", "gh"]) :
    generateSigmapoints n method = .error .unboundLocal := by
  simp only [List.mem_cons, List.not_mem_nil, or_false, not_or] at hm
  unfold generateSigmapoints
  rw [if_neg hm.1, if_neg hm.2.1, if_neg hm.2.2]

/-- **C13 (Gauss-Hermite nodes).** The scalar nodes are the roots of `x^3 - 3x`. -/
theorem C13_gh_nodes (i : Fin 3) : ghRoot i ^ 3 - 3 * ghRoot i = 0 := ghRoot_root i

example : ∃ σ : List (ℝ × Vec 3), generateSigmapoints 3 "gh" = .ok σ ∧ σ.length = 27 := by
  obtain ⟨_, _, σ, h, hl⟩ := C13_sigma_count (n := 3) (by norm_num)
  exact ⟨σ, h, by rw [hl]; norm_num⟩

/-! ### mean_state -/

/-- **C13 (mean_state).** On vector states with weights summing to one, `mean_state` returns the weighted
mean exactly, with the stamp of the first state. -/
theorem C13_mean_state_vector (w0 : ℝ) (x0 : St (Vec n)) (l : List (ℝ × St (Vec n)))
    (h1 : (((w0, x0) :: l).map fun p => p.1).sum = 1) :
    meanState (fun x dx : Vec n => x + dx) (fun x y => x - y) ((w0, x0) :: l)
      = .ok ⟨(((w0, x0) :: l).map fun p => p.1 • p.2.value).sum, x0.stamp⟩ := by
  unfold meanState
  have h1' : wsum (((w0, x0) :: l).map fun p => (p.1, p.2.value)) (fun _ => (1 : ℝ)) = 1 := by
    rw [wsum_map]; simpa [wsum] using h1
  simp only
  rw [meanLoop_vec _ h1']
  congr 2
  rw [wsum_map]; rfl

/-! ### Linear models -/

/-- A sigma-point filter on vector states and inputs with the affine process model
`x⁺ = A(dt) x + B(dt) u + c(dt)`. -/
def linSpkf (A : ℝ → Mat n n) (B : ℝ → Mat n k) (c : ℝ → Vec n) (method : String) (rej iter : Bool)
    (chi : ℕ → ℝ) : SpkfEnv (Vec n) (Vec k) n k where
  evaluate x u dt := ⟨A dt *ᵥ x.value + B dt *ᵥ u.value + c dt, x.stamp⟩
  plus x dx := x + dx
  minus x y := x - y
  uplus u w := u + w
  method := method
  rejectOutliers := rej
  iterateMean := iter
  chi2ppf99 := chi

/-- **C14 (prediction).** On an affine model the sigma-point prediction is the Kalman prediction, for every
method, with or without mean iteration: mean `A x + B u + c`, covariance `A P Aᵀ + B Q Bᵀ`. -/
theorem C14_predict_linear (A : ℝ → Mat n n) (B : ℝ → Mat n k) (c : ℝ → Vec n) (method : String)
    (hm : method ∈ ["unscented", "cubature", "gh"]) (hn : n ≠ 0) (rej iter : Bool) (chi : ℕ → ℝ)
    (x : SWC (Vec n) n) (hP : x.cov.PosDef) (t : ℝ) (hx : x.state.stamp = some t)
    (u : CInp (Vec k) k) (Q : Mat k k) (hQ : Q.PosDef) (dt : ℝ) (hdt : 0 ≤ dt) :
    (linSpkf A B c method rej iter chi).predict x (some u) (some dt) (some Q) = .ok
      { state := ⟨A dt *ᵥ x.state.value + B dt *ᵥ u.value + c dt, some (t + dt)⟩
        cov := A dt * x.cov * (A dt)ᵀ + B dt * Q * (B dt)ᵀ } := by
  obtain ⟨L, hL, hLL⟩ := chol_ok (blockDiag2_pd hP hQ)
  obtain ⟨σ, hσ⟩ := generate_total (n := n + k) (by omega) hm
  obtain ⟨⟨h0, h1, h2⟩, _, hne⟩ := generate_ok hσ
  set f := linSpkf A B c method rej iter chi with hf
  have hargs : SpkfEnv.predictArgs x u (some dt) (some Q) = .ok (some t, Q, dt) := by
    simp [SpkfEnv.predictArgs, inputCovOf, timeStepOf, hx, bind, Except.bind, hdt]
  set μ : Vec n := A dt *ᵥ x.state.value + B dt *ᵥ u.value + c dt with hμ
  set T := catCols (A dt) (B dt) * L with hT
  have hprop : f.propagated { x.state with stamp := some t } u dt L σ
      = σ.map fun p => (p.1, (⟨μ + T *ᵥ p.2, some t⟩ : St (Vec n))) := by
    unfold SpkfEnv.propagated
    apply List.map_congr_left
    intro p _
    have := catCols_mulVec (A dt) (B dt) (L *ᵥ p.2)
    rw [mulVec_mulVec] at this
    simp only [hf, linSpkf, hT, this, hμ, mulVec_add]
    congr 2
    abel
  have hmean : f.predMean { x.state with stamp := some t } u dt
      (σ.map fun p => (p.1, (⟨μ + T *ᵥ p.2, some t⟩ : St (Vec n)))) = .ok ⟨μ, some t⟩ := by
    unfold SpkfEnv.predMean
    cases hi : f.iterateMean
    · simp [hf, linSpkf, hμ]
    · simp only [if_true]
      obtain ⟨⟨w0, s0⟩, l, rfl⟩ := List.exists_cons_of_ne_nil hne
      show meanState (fun x dx : Vec n => x + dx) (fun x y => x - y) _ = _
      rw [List.map_cons, C13_mean_state_vector]
      · congr 2
        have e : (((w0, (⟨μ + T *ᵥ s0, some t⟩ : St (Vec n))) :: l.map fun p : ℝ × Vec (n + k) =>
              (p.1, (⟨μ + T *ᵥ p.2, some t⟩ : St (Vec n)))).map fun p => p.1 • p.2.value).sum
            = wsum ((w0, s0) :: l) fun s => μ + T *ᵥ s := by
          simp [wsum, Function.comp_def]
        rw [e, wsum_add, wsum_const, h0, wsum_mulVec _ _ h1]
        simp
      · simpa [wsum, Function.comp_def] using h0
  have hcov : f.predCov ⟨μ, some t⟩ (σ.map fun p => (p.1, (⟨μ + T *ᵥ p.2, some t⟩ : St (Vec n))))
      = A dt * x.cov * (A dt)ᵀ + B dt * Q * (B dt)ᵀ := by
    unfold SpkfEnv.predCov
    rw [wsum_map σ (fun s => (⟨μ + T *ᵥ s, some t⟩ : St (Vec n)))]
    have e : (fun s : Vec (n + k) => vecMulVec (f.minus μ (μ + T *ᵥ s)) (f.minus μ (μ + T *ᵥ s)))
        = fun s => vecMulVec (T *ᵥ s) (T *ᵥ s) := by
      funext s
      have : f.minus μ (μ + T *ᵥ s) = -(T *ᵥ s) := by
        show μ - (μ + T *ᵥ s) = _
        abel
      rw [this, neg_vecMulVec, vecMulVec_neg, neg_neg]
    simp only
    rw [e, wsum_conj _ _ _ h2, hT, transpose_mul, ← catCols_block, ← hLL]
    simp only [Matrix.mul_assoc]
  have hsym : (A dt * x.cov * (A dt)ᵀ + B dt * Q * (B dt)ᵀ).PosSemidef :=
    psd_add (psd_conj hP.posSemidef _) (psd_conj hQ.posSemidef _)
  unfold SpkfEnv.predict
  simp only [hargs, bind, Except.bind]
  unfold SpkfEnv.propagate
  have hσ' : generateSigmapoints (n + k) f.method = .ok σ := hσ
  simp only [hL, hσ', bind, Except.bind]
  rw [hprop, hmean]
  simp only [hcov]
  rw [symmetrize_eq (psd_symm hsym)]

/-- Helper: what the sigma-point correction returns on a linear measurement. -/
theorem spkf_correct_linear (f : SpkfEnv (Vec n) U n k) (hplus : ∀ x dx, f.plus x dx = x + dx)
    (hm : f.method ∈ ["unscented", "cubature", "gh"]) (hn : n ≠ 0)
    {m : ℕ} (C : Mat m n) (R : Mat m m) (hR : R.PosDef) (y : Vec m) (t : ℝ)
    (x : SWC (Vec n) n) (hP : x.cov.PosDef) (hx : x.state.stamp = some t) :
    f.correct x (linMeas C R y (some t)) none (some false) = .ok
      { state := ⟨x.state.value + kGain x.cov C R *ᵥ (y - C *ᵥ x.state.value), some t⟩
        cov := kCov x.cov C R } := by
  obtain ⟨L, hL, hLL⟩ := chol_ok hP
  obtain ⟨σ, hσ⟩ := generate_total (n := n) hn hm
  obtain ⟨⟨h0, h1, h2⟩, _, hne⟩ := generate_ok hσ
  have hadv : f.advance x (linMeas C R y (some t)) none = .ok x := by
    unfold SpkfEnv.advance
    simp [hx, linMeas]
  have hys : ∀ l : Weighted (Vec n), evalPoints (m := m)
      (fun s => (linMeasModel C R).evaluate { x.state with value := f.plus x.state.value s }) l
      = .ok (l.map fun p => (p.1, (p.2, C *ᵥ (x.state.value + p.2)))) := by
    intro l
    induction l with
    | nil => rfl
    | cons p l ih =>
      obtain ⟨w, s⟩ := p
      simp only [evalPoints, linMeasModel, hplus] at ih ⊢
      rw [ih]
      rfl
  have hS : (C * x.cov * Cᵀ + R).PosDef := innov_pd hP.posSemidef C hR
  set ys : Weighted (Vec n × Vec m) :=
    (σ.map fun p => (p.1, L *ᵥ p.2)).map fun p => (p.1, (p.2, C *ᵥ (x.state.value + p.2))) with hysdef
  have hw : ∀ {M : Type} [AddCommGroup M] [Module ℝ M] (g : Vec n × Vec m → M),
      wsum ys g = wsum σ fun s => g (L *ᵥ s, C *ᵥ x.state.value + (C * L) *ᵥ s) := by
    intro M _ _ g
    rw [hysdef, wsum_map (g := fun s => (s, C *ᵥ (x.state.value + s))), wsum_map]
    simp [mulVec_add, mulVec_mulVec]
  have hmean : (wsum ys fun p => p.2) = C *ᵥ x.state.value := by
    rw [hw]
    simp only
    rw [wsum_add, wsum_const, h0, wsum_mulVec _ _ h1]
    simp
  have hPyy : (wsum ys fun p => vecMulVec (p.2 - C *ᵥ x.state.value) (p.2 - C *ᵥ x.state.value))
      = C * x.cov * Cᵀ := by
    rw [hw]
    simp only [add_sub_cancel_left]
    rw [wsum_conj _ _ _ h2, transpose_mul, ← hLL]
    simp only [Matrix.mul_assoc]
  have hPxy : (wsum ys fun p => vecMulVec p.1 (p.2 - C *ᵥ x.state.value)) = x.cov * Cᵀ := by
    rw [hw]
    simp only [add_sub_cancel_left]
    rw [wsum_conj _ _ _ h2, transpose_mul, ← hLL]
    simp only [Matrix.mul_assoc]
  have hfy : f.fuseYs x (linMeas C R y (some t)) false ys = .ok
      { state := ⟨x.state.value + kGain x.cov C R *ᵥ (y - C *ᵥ x.state.value), some t⟩
        cov := kCov x.cov C R } := by
    unfold SpkfEnv.fuseYs
    simp only [bind, Except.bind, maybeOutlier, Bool.false_eq_true, if_false]
    show f.update x (y - wsum ys fun p => p.2)
      ((wsum ys fun p => vecMulVec (p.2 - wsum ys fun p => p.2) (p.2 - wsum ys fun p => p.2)) + R)
      (wsum ys fun p => vecMulVec p.1 (p.2 - wsum ys fun p => p.2)) = _
    rw [hmean, hPyy, hPxy]
    unfold SpkfEnv.update
    rw [solve_ok (by rw [det_transpose]; exact pd_det hS)]
    simp only [bind, Except.bind, pure, Except.pure, hplus, hx]
    have hK : (((C * x.cov * Cᵀ + R)ᵀ)⁻¹ * (x.cov * Cᵀ)ᵀ)ᵀ = kGain x.cov C R := by
      rw [transpose_mul, transpose_transpose, transpose_nonsing_inv, transpose_transpose]
      rfl
    rw [hK]
    have hC : x.cov - kGain x.cov C R * (x.cov * Cᵀ)ᵀ = kCov x.cov C R := by
      unfold kCov
      rw [transpose_mul, transpose_transpose, psd_symm hP.posSemidef, Matrix.sub_mul, Matrix.one_mul,
        Matrix.mul_assoc]
    rw [hC, symmetrize_eq (psd_symm (kCov_psd hP.posSemidef C hR))]
  unfold SpkfEnv.correct
  rw [hadv]
  simp only [bind, Except.bind, Option.getD_some]
  unfold SpkfEnv.fuse
  rw [hσ, hL]
  show Except.bind (evalPoints (m := m)
      (fun s => (linMeasModel C R).evaluate { x.state with value := f.plus x.state.value s })
      (σ.map fun p => (p.1, L *ᵥ p.2)))
    (fun v => f.fuseYs x (linMeas C R y (some t)) false v) = _
  rw [hys]
  exact hfy

/-- **C14 (correction).** On a vector state with a linear measurement the sigma-point correction returns
exactly what `ExtendedKalmanFilter.correct` returns (which is the exact Gaussian posterior by C03). -/
theorem C14_correct_linear (f : SpkfEnv (Vec n) U n k) (hplus : ∀ x dx, f.plus x dx = x + dx)
    (hm : f.method ∈ ["unscented", "cubature", "gh"]) (hn : n ≠ 0)
    (proc : ProcModel (Vec n) U n) (rejE : Bool) (chi : ℕ → ℝ)
    {m : ℕ} (C : Mat m n) (R : Mat m m) (hR : R.PosDef) (y : Vec m) (t : ℝ)
    (x : SWC (Vec n) n) (hP : x.cov.PosDef) (hx : x.state.stamp = some t) :
    ∃ x', f.correct x (linMeas C R y (some t)) none (some false) = .ok x' ∧
      (vecEnv proc rejE chi).correct x (linMeas C R y (some t)) none none (some false) = .ok x' :=
  ⟨_, spkf_correct_linear f hplus hm hn C R hR y t x hP hx,
    correct_linear proc rejE chi C R hR y t x hP.posSemidef hx⟩

/-- Non-vacuity of C14 -/
example : ∃ x', (linSpkf (n := 1) (k := 1) (fun _ => 1) (fun dt => dt • 1) 0 "gh" false true
    (fun _ => 6)).predict (est1 0) (some ⟨fun _ => 3, some 0, none⟩) (some 2) (some 1) = .ok x' :=
  ⟨_, C14_predict_linear _ _ _ "gh" (by simp) (by norm_num) _ _ _ (est1 0) PosDef.one 0 rfl _ 1
    PosDef.one 2 (by norm_num)⟩

/-! ### C15: covariance for arbitrary models -/

theorem evalPoints_ok {m : ℕ} {ev : Vec n → Option (Vec m)} {l : Weighted (Vec n)}
    {ys : Weighted (Vec n × Vec m)} (h : evalPoints ev l = .ok ys) :
    ys.map (fun p => (p.1, p.2.1)) = l := by
  induction l generalizing ys with
  | nil => cases h; rfl
  | cons p l ih =>
    obtain ⟨w, s⟩ := p
    unfold evalPoints at h
    cases hs : ev s with
    | none => rw [hs] at h; cases h
    | some y =>
      rw [hs] at h
      simp only at h
      cases hl : evalPoints ev l with
      | error e => rw [hl] at h; cases h
      | ok ys' =>
        rw [hl] at h
        cases h
        simp [ih hl]

/-- **C15.** Whatever the measurement function, a correction at the state's time that does not raise keeps
the covariance symmetric PSD and never increases it (Loewner order), for PD measurement noise. -/
theorem C15_fuse_psd (f : SpkfEnv V U n k) (x : SWC V n) (y : Meas V n) (rej : Bool)
    (hR : ∀ s, (y.model.covariance s).PosDef) (hP : x.cov.PosSemidef) (x' : SWC V n)
    (h : f.fuse x y rej = .ok x') :
    x'.cov.PosSemidef ∧ (x.cov - x'.cov).PosSemidef := by
  have hsame : x' = x → x'.cov.PosSemidef ∧ (x.cov - x'.cov).PosSemidef := by
    rintro rfl
    exact ⟨hP, by rw [sub_self]; exact PosSemidef.zero⟩
  unfold SpkfEnv.fuse at h
  obtain ⟨σ, hσ, h⟩ := bind_ok h
  obtain ⟨L, hL, h⟩ := bind_ok h
  obtain ⟨⟨h0, h1, h2⟩, hpos, hne⟩ := generate_ok hσ
  have hLL : L * Lᵀ = x.cov := by
    rw [(chol_ok_iff hL).2, lowerSym_eq (psd_symm hP)]
  cases hev : y.model.evaluate x.state with
  | none =>
    rw [hev] at h
    exact hsame (Except.ok.inj h).symm
  | some yc =>
    rw [hev] at h
    simp only at h
    obtain ⟨ys, hys, h⟩ := bind_ok h
    have hpts := evalPoints_ok hys
    have hw : ∀ p ∈ ys, 0 ≤ p.1 := by
      intro p hp
      have : (p.1, p.2.1) ∈ ys.map (fun p => (p.1, p.2.1)) := List.mem_map.2 ⟨p, hp, rfl⟩
      rw [hpts] at this
      obtain ⟨q, hq, he⟩ := List.mem_map.1 this
      have := hpos q hq
      simp only [Prod.mk.injEq] at he
      rw [← he.1]; exact this.le
    have hxx : (wsum ys fun p => vecMulVec p.1 p.1) = x.cov := by
      have e := wsum_map ys (fun p => p.1) (fun s : Vec n => vecMulVec s s)
      rw [hpts] at e
      rw [← e, wsum_map σ (fun s => L *ᵥ s) (fun s : Vec n => vecMulVec s s), wsum_conj _ _ _ h2, hLL]
    unfold SpkfEnv.fuseYs at h
    obtain ⟨o, ho, h⟩ := bind_ok h
    cases o with
    | true => exact hsame (Except.ok.inj h).symm
    | false =>
      simp only [Bool.false_eq_true, if_false] at h
      unfold SpkfEnv.update at h
      obtain ⟨Kt, hK, h⟩ := bind_ok h
      obtain ⟨hd, hKt⟩ := gain_eq hK
      cases h
      simp only
      set ym := wsum ys fun p => p.2
      set X := wsum ys fun p => vecMulVec p.1 (p.2 - ym)
      set Y := wsum ys fun p => vecMulVec (p.2 - ym) (p.2 - ym)
      have hY : Y.PosSemidef := wsum_psd ys hw _
      have hM := wsum_block_psd ys hw (fun p => p.1) (fun p => p.2 - ym)
      rw [hxx] at hM
      have hS := schur_psd (hR x.state) hY hM
      rw [hKt, symmetrize_eq (psd_symm hS)]
      refine ⟨hS, ?_⟩
      have hD : (Y + y.model.covariance x.state).PosDef := PosDef.posSemidef_add hY (hR _)
      rw [sub_sub_cancel]
      exact psd_conj hD.inv.posSemidef X

/-- **C15 (prediction).** A prediction that does not raise returns a symmetric PSD covariance, whatever
the process model, mean iteration and previous covariance. -/
theorem C15_predict_psd (f : SpkfEnv V U n k) (x : SWC V n) (u : Option (CInp U k))
    (dt : Option ℝ) (Q : Option (Mat k k)) (hP : x.cov.PosSemidef) (x' : SWC V n)
    (h : f.predict x u dt Q = .ok x') : x'.cov.PosSemidef := by
  unfold SpkfEnv.predict at h
  cases u with
  | none =>
    simp only [SpkfEnv.predictNone] at h
    split at h
    · split at h
      · cases h
      · cases h; exact hP
    · cases h
  | some u =>
    simp only at h
    obtain ⟨⟨xs, Q', d⟩, _, h⟩ := bind_ok h
    simp only at h
    unfold SpkfEnv.propagate at h
    obtain ⟨L, hL, h⟩ := bind_ok h
    obtain ⟨σ, hσ, h⟩ := bind_ok h
    obtain ⟨mean, hmean, h⟩ := bind_ok h
    obtain ⟨_, hpos, _⟩ := generate_ok hσ
    have hp : (f.predCov mean (f.propagated { x.state with stamp := xs } u d L σ)).PosSemidef := by
      unfold SpkfEnv.predCov
      apply wsum_psd
      intro p hp
      unfold SpkfEnv.propagated at hp
      obtain ⟨q, hq, rfl⟩ := List.mem_map.1 hp
      exact (hpos q hq).le
    split at h
    · cases h
    · cases h
      simp only
      rw [symmetrize_eq (psd_symm hp)]
      exact hp

/-- One call on a sigma-point filter. -/
inductive SpkfOp (V U : Type) (n k : ℕ) where
  | predict (u : Option (CInp U k)) (dt : Option ℝ) (Q : Option (Mat k k))
  | correct (y : Meas V n) (u : Option (CInp U k)) (rej : Option Bool)

/-- Run one call. -/
noncomputable def SpkfEnv.step (f : SpkfEnv V U n k) (x : SWC V n) : SpkfOp V U n k → Except Err (SWC V n)
  | .predict u dt Q => f.predict x u dt Q
  | .correct y u rej => f.correct x y u rej

/-- **C15 (histories).** Over any finite history of calls that do not raise, the covariance stays
symmetric PSD, for any models with PD measurement noise. -/
theorem C15_history_psd (f : SpkfEnv V U n k) (ops : List (SpkfOp V U n k))
    (hR : ∀ y u rej, SpkfOp.correct y u rej ∈ ops → ∀ s, (y.model.covariance s).PosDef)
    (x : SWC V n) (hP : x.cov.PosSemidef) (x' : SWC V n)
    (h : ops.foldlM f.step x = .ok x') : x'.cov.PosSemidef := by
  induction ops generalizing x with
  | nil => cases h; exact hP
  | cons op ops ih =>
    rw [List.foldlM_cons] at h
    obtain ⟨x1, h1, h⟩ := bind_ok h
    refine ih (fun y u rej hm => hR y u rej (by simp [hm])) x1 ?_ h
    cases op with
    | predict u dt Q => exact C15_predict_psd f x u dt Q hP x1 h1
    | correct y u rej =>
      have hy := hR y u rej (by simp)
      unfold SpkfEnv.step SpkfEnv.correct at h1
      obtain ⟨xp, ha, h1⟩ := bind_ok h1
      refine (C15_fuse_psd f xp y _ hy ?_ x1 h1).1
      have hload : ∀ x : SWC V n, x.cov.PosSemidef → (match x.state.stamp with
          | none => { x with state := { x.state with stamp := y.stamp } }
          | some _ => x : SWC V n).cov.PosSemidef := by
        intro x hx; split <;> exact hx
      unfold SpkfEnv.advance at ha
      simp only at ha
      have hl := hload x hP
      set xl : SWC V n := (match x.state.stamp with
          | none => { x with state := { x.state with stamp := y.stamp } }
          | some _ => x : SWC V n)
      split at ha
      · cases ha; exact hl
      · cases ha
      · split at ha
        · cases ha
        · split at ha
          · cases ha; exact hl
          · exact C15_predict_psd f xl _ _ _ hl xp ha

/-! ### C16: time bookkeeping and errors -/

/-- **C16.** For a stamped state, an input with covariance (given or attached): `predict` raises
`RuntimeError` when `dt` (given, or input stamp minus state stamp) is negative. -/
theorem C16_predict_negative (f : SpkfEnv V U n k) (x : SWC V n) (u : CInp U k) (dt : Option ℝ)
    (Q : Option (Mat k k)) (hQ : Q ≠ none ∨ u.cov ≠ none) (tx tu : ℝ) (hx : x.state.stamp = some tx)
    (hu : u.stamp = some tu) (hneg : dt.getD (tu - tx) < 0) :
    f.predict x (some u) dt Q = .error .runtimeError := by
  unfold SpkfEnv.predict SpkfEnv.predictArgs inputCovOf timeStepOf
  rcases Q with _ | Q
  · rcases hc : u.cov with _ | C
    · simp [hc] at hQ
    · rcases dt with _ | d <;> simp at hneg <;>
        simp [hx, hu, hc, bind, Except.bind, hneg]
  · rcases dt with _ | d <;> simp at hneg <;>
      simp [hx, hu, bind, Except.bind, hneg]

/-- **C16.** No input covariance available: `ValueError`. -/
theorem C16_predict_no_covariance (f : SpkfEnv V U n k) (x : SWC V n) (u : CInp U k) (dt : Option ℝ)
    (hu : u.cov = none) : f.predict x (some u) dt none = .error .valueError := by
  unfold SpkfEnv.predict SpkfEnv.predictArgs inputCovOf timeStepOf
  simp [hu, bind, Except.bind]

/-- **C16.** A prediction that returns has a nonnegative time step `d` (given, or input stamp minus state
stamp) and, for process models that keep the stamp, the result is stamped `t + d`. -/
theorem C16_predict_stamp (f : SpkfEnv V U n k) (hkeep : ∀ x u dt, (f.evaluate x u dt).stamp = x.stamp)
    (x : SWC V n) (u : CInp U k) (dt : Option ℝ) (Q : Option (Mat k k)) (tx : ℝ)
    (hx : x.state.stamp = some tx) (x' : SWC V n) (h : f.predict x (some u) dt Q = .ok x') :
    ∃ d, 0 ≤ d ∧ (dt = some d ∨ dt = none ∧ u.stamp = some (tx + d)) ∧ x'.state.stamp = some (tx + d) := by
  unfold SpkfEnv.predict at h
  simp only at h
  obtain ⟨⟨xs, Q', d⟩, hargs, h⟩ := bind_ok h
  have ha : xs = some tx ∧ 0 ≤ d ∧ (dt = some d ∨ dt = none ∧ u.stamp = some (tx + d)) := by
    unfold SpkfEnv.predictArgs at hargs
    simp only [hx] at hargs
    obtain ⟨Q1, _, hargs⟩ := bind_ok hargs
    obtain ⟨d1, hd1, hargs⟩ := bind_ok hargs
    split at hargs
    · cases hargs
    · rename_i hn
      cases hargs
      refine ⟨rfl, not_lt.1 hn, ?_⟩
      rcases dt with _ | d0
      · right
        refine ⟨rfl, ?_⟩
        unfold timeStepOf at hd1
        rcases hu : u.stamp with _ | tu
        · rw [hu] at hd1; cases hd1
        · rw [hu] at hd1; cases hd1; simp
      · left; cases hd1; rfl
  obtain ⟨rfl, hd, hdt⟩ := ha
  refine ⟨d, hd, hdt, ?_⟩
  simp only at h
  unfold SpkfEnv.propagate at h
  obtain ⟨L, hL, h⟩ := bind_ok h
  obtain ⟨σ, hσ, h⟩ := bind_ok h
  obtain ⟨mean, hmean, h⟩ := bind_ok h
  have hms : mean.stamp = some tx := by
    unfold SpkfEnv.predMean at hmean
    split at hmean
    · unfold meanState SpkfEnv.propagated at hmean
      cases σ with
      | nil => cases hmean
      | cons p l =>
        simp only [List.map_cons] at hmean
        cases hmean
        exact hkeep _ _ _
    · cases hmean; exact hkeep _ _ _
  rw [hms] at h
  cases h
  rfl

/-- **C16.** `correct` raises `RuntimeError` for a measurement older than the state. -/
theorem C16_correct_old (f : SpkfEnv V U n k) (x : SWC V n) (y : Meas V n) (u : Option (CInp U k))
    (rej : Option Bool) (tx ty : ℝ) (hx : x.state.stamp = some tx) (hy : y.stamp = some ty)
    (hlt : ty < tx) : f.correct x y u rej = .error .runtimeError := by
  have : f.advance x y u = .error .runtimeError := by
    unfold SpkfEnv.advance
    simp only [hx, hy]
    rw [if_pos (by linarith)]
  unfold SpkfEnv.correct
  rw [this]; rfl

theorem fuse_ne_runtimeError (f : SpkfEnv V U n k) (x : SWC V n) (y : Meas V n) (rej : Bool) :
    f.fuse x y rej ≠ .error .runtimeError := by
  have hsolve : ∀ {m : ℕ} {K : Type} (A : Mat m m) (B : Matrix (Fin m) K ℝ),
      solve A B ≠ .error .runtimeError := by
    intro m K A B; unfold solve; split <;> simp
  unfold SpkfEnv.fuse
  refine bind_ne (by unfold generateSigmapoints; split_ifs <;> simp) fun σ _ => ?_
  refine bind_ne (by unfold npCholesky; split <;> simp) fun L _ => ?_
  split
  · simp
  · refine bind_ne ?_ fun ys _ => ?_
    · generalize List.map (fun p : ℝ × Vec n => (p.1, L *ᵥ p.2)) σ = l
      induction l with
      | nil => simp [evalPoints]
      | cons p l ih =>
        obtain ⟨w, s⟩ := p
        unfold evalPoints
        split
        · simp
        · rename_i yv _
          cases hl : evalPoints (fun s => y.model.evaluate
            { x.state with value := f.plus x.state.value s }) l with
          | error e => rw [hl] at ih; simpa [Except.map] using ih
          | ok v => simp [Except.map]
    · unfold SpkfEnv.fuseYs
      refine bind_ne ?_ fun o _ => ?_
      · unfold maybeOutlier
        split
        · unfold checkOutlier
          exact bind_ne (hsolve _ _) (by intros; simp [pure, Except.pure])
        · simp
      · split
        · simp
        · unfold SpkfEnv.update
          exact bind_ne (hsolve _ _) (by intros; simp [pure, Except.pure])

/-- **C16.** Without an input, `correct` raises `RuntimeError` exactly when the measurement is older than
the state. -/
theorem C16_correct_runtimeError_iff (f : SpkfEnv V U n k) (x : SWC V n) (y : Meas V n)
    (rej : Option Bool) (tx ty : ℝ) (hx : x.state.stamp = some tx) (hy : y.stamp = some ty) :
    f.correct x y none rej = .error .runtimeError ↔ ty < tx := by
  constructor
  · intro h
    by_contra hn
    have ha : f.advance x y none = .ok x := by
      unfold SpkfEnv.advance
      simp only [hx, hy]
      rw [if_neg (by linarith)]
    unfold SpkfEnv.correct at h
    rw [ha] at h
    exact fuse_ne_runtimeError f x y _ h
  · exact C16_correct_old f x y none rej tx ty hx hy

/-- Non-vacuity of C16 -/
example : (linSpkf (n := 1) (k := 1) (fun _ => 1) (fun dt => dt • 1) 0 "gh" false true
    (fun _ => 6)).correct (est1 2) (meas1 1) none none = .error .runtimeError :=
  C16_correct_old _ _ _ _ _ 2 1 rfl rfl (by norm_num)

end Verif
