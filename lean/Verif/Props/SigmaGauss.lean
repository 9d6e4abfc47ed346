import Verif.Lemmas.Gauss
import Verif.Props.Sigma

/-!
C109-C110: what sigma-point filters compute on nonlinear models, against the normal distribution they stand for.

The specification: `normal S` (Lemmas/Gauss.lean) is Mathlib's multivariate Gaussian with mean zero and covariance
`S`; `rvMean`, `rvCross` (Lemmas/Moments.lean) are `E[X]` and `E[X Yᵀ]`; `PolyMap d g` says that the components of
`g` are polynomials of degree at most `d`; `ruleDegree` is 5 for "gh" and 3 for "unscented" and "cubature".
-/

set_option linter.unusedVariables false
set_option linter.unusedSectionVars false

namespace Verif

open Matrix MeasureTheory

variable {U : Type} {n k m N : ℕ}

/-! ### The rules -/

/-- **C109 (rule).** The weighted points of every method integrate every polynomial up to the degree of the method
(3, or 5 for Gauss-Hermite) exactly against the standard normal distribution, in every dimension. -/
theorem C109_rule_exact (method : String) (σ : List (ℝ × Vec N)) (hσ : generateSigmapoints N method = .ok σ)
    (q : Vec N → ℝ) (hq : PolyFn (ruleDegree method) q) :
    (σ.map fun p => p.1 * q p.2).sum = ∫ z, q z ∂(normal (1 : Mat N N)) := by
  have := gquad_exact (generate_exact hσ) (S := 1) (L := 1) (by simp) hq
  simp only [one_mulVec] at this
  rw [← this]
  rfl

theorem axes_pair {a b : Fin N} (hab : a ≠ b) (c : ℝ) (i : Fin N) :
    (c • unitVec i) a ^ 2 * (c • unitVec i) b ^ 2 = 0 ∧ (c • (-unitVec i)) a ^ 2 * (c • (-unitVec i)) b ^ 2 = 0 := by
  rcases eq_or_ne a i with rfl | h
  · have : b ≠ a := hab.symm
    constructor <;> simp [unitVec, Pi.single_apply, this]
  · constructor <;> simp [unitVec, Pi.single_apply, h]

/-- **C109 (sharp).** Degree 3 is the limit of "unscented" and "cubature": from two dimensions on, `z_a² z_b²` is
integrated to 0 while its expectation is 1. -/
theorem C109_rule_sharp (method : String) (hm : method = "unscented" ∨ method = "cubature") (σ : List (ℝ × Vec N))
    (hσ : generateSigmapoints N method = .ok σ) (a b : Fin N) (hab : a ≠ b) :
    (σ.map fun p => p.1 * (p.2 a ^ 2 * p.2 b ^ 2)).sum = 0 ∧
      ∫ z, z a ^ 2 * z b ^ 2 ∂(normal (1 : Mat N N)) = 1 := by
  constructor
  · apply List.sum_eq_zero
    intro v hv
    obtain ⟨p, hp, rfl⟩ := List.mem_map.1 hv
    have : p.2 a ^ 2 * p.2 b ^ 2 = 0 := by
      rcases hm with rfl | rfl
      · simp only [generateSigmapoints, if_true] at hσ
        cases hσ
        simp only [unscentedPoints, List.mem_cons, List.mem_append, List.mem_map] at hp
        rcases hp with rfl | ⟨i, _, rfl⟩ | ⟨i, _, rfl⟩
        · simp
        · exact (axes_pair hab _ i).1
        · exact (axes_pair hab _ i).2
      · unfold generateSigmapoints at hσ
        rw [if_neg (by decide), if_pos rfl] at hσ
        split at hσ
        · cases hσ
        · cases hσ
          simp only [cubaturePoints, List.mem_append, List.mem_map] at hp
          rcases hp with ⟨i, _, rfl⟩ | ⟨i, _, rfl⟩
          · exact (axes_pair hab _ i).1
          · exact (axes_pair hab _ i).2
    simp [this]
  · have h := mono_integral (N := N) (Pi.single a 2 + Pi.single b 2)
    have e : ∀ z : Vec N, ∏ j, z j ^ (Pi.single a 2 + Pi.single b 2 : Fin N → ℕ) j = z a ^ 2 * z b ^ 2 := by
      intro z
      simp only [Pi.add_apply, pow_add, Finset.prod_mul_distrib]
      congr 1
      · rw [Finset.prod_eq_single a] <;> simp +contextual
      · rw [Finset.prod_eq_single b] <;> simp +contextual
    have e2 : ∏ j, gm ((Pi.single a 2 + Pi.single b 2 : Fin N → ℕ) j) = 1 := by
      apply Finset.prod_eq_one
      intro j _
      by_cases ha : j = a
      · subst ha
        simp [hab, gm_even.1]
      · by_cases hb : j = b
        · subst hb
          simp [ha, gm_even.1]
        · simp [Pi.single_apply, ha, hb, gm_zero]
    simp only [e, e2] at h
    rw [normal_eq_map (L := 1) (by simp)]
    simpa using h

/-! ### Prediction -/

/-- Vector states and inputs: `plus` and `minus` are addition and subtraction (`VectorState`, `VectorInput`). -/
structure SpkfEnv.Flat (f : SpkfEnv (Vec n) (Vec k) n k) : Prop where
  plus : ∀ x dx, f.plus x dx = x + dx
  minus : ∀ x y, f.minus x y = x - y
  uplus : ∀ u w, f.uplus u w = u + w

theorem append_split (v : Vec (n + k)) : Fin.append (spX v) (spU v) = v := by
  funext i
  refine Fin.addCases (fun j => ?_) (fun j => ?_) i
  · simp [spX]
  · simp [spU]

/-- What a prediction computes on vectors: the reported covariance is the weighted second moment about the reported
mean. -/
theorem spkf_predict_flat (f : SpkfEnv (Vec n) (Vec k) n k) (hf : f.Flat)
    (hm : f.method ∈ ["unscented", "cubature", "gh"]) (hn : n ≠ 0)
    (x : SWC (Vec n) n) (hP : x.cov.PosDef) (t : ℝ) (hx : x.state.stamp = some t)
    (u : CInp (Vec k) k) (Q : Mat k k) (hQ : Q.PosDef) (dt : ℝ) (hdt : 0 ≤ dt) (g : Vec (n + k) → Vec n)
    (hg : ∀ δ w, f.evaluate ⟨x.state.value + δ, some t⟩ { u with value := u.value + w } dt
      = ⟨g (Fin.append δ w), some t⟩) :
    ∃ L σ, L * Lᵀ = blockDiag2 x.cov Q ∧ generateSigmapoints (n + k) f.method = .ok σ ∧
      ∃ μ, (f.iterateMean = true → μ = wsum σ fun z => g (L *ᵥ z)) ∧ (f.iterateMean = false → μ = g 0) ∧
      f.predict x (some u) (some dt) (some Q) = .ok
        { state := ⟨μ, some (t + dt)⟩
          cov := wsum σ fun z => vecMulVec (g (L *ᵥ z) - μ) (g (L *ᵥ z) - μ) } := by
  obtain ⟨L, hL, hLL⟩ := chol_ok (blockDiag2_pd hP hQ)
  obtain ⟨σ, hσ⟩ := generate_total (n := n + k) (by omega) hm
  obtain ⟨⟨h0, h1, h2⟩, hpos, hne⟩ := generate_ok hσ
  refine ⟨L, σ, hLL, hσ, ?_⟩
  have hargs : SpkfEnv.predictArgs x u (some dt) (some Q) = .ok (some t, Q, dt) := by
    simp [SpkfEnv.predictArgs, inputCovOf, timeStepOf, hx, bind, Except.bind, hdt]
  have hprop : f.propagated { x.state with stamp := some t } u dt L σ
      = σ.map fun p => (p.1, (⟨g (L *ᵥ p.2), some t⟩ : St (Vec n))) := by
    unfold SpkfEnv.propagated
    apply List.map_congr_left
    intro p _
    simp only [hf.plus, hf.uplus]
    rw [hg, append_split]
  have hg0 : f.evaluate { x.state with stamp := some t } u dt = ⟨g 0, some t⟩ := by
    have := hg 0 0
    simp only [add_zero] at this
    rw [this]
    congr 2
    rw [← append_split (0 : Vec (n + k))]
    rfl
  have hpl : f.plus = fun x dx => x + dx := by funext x dx; exact hf.plus x dx
  have hmi : f.minus = fun x y => x - y := by funext x dx; exact hf.minus x dx
  have key : ∃ μ, (f.iterateMean = true → μ = wsum σ fun z => g (L *ᵥ z)) ∧ (f.iterateMean = false → μ = g 0) ∧
      f.predMean { x.state with stamp := some t } u dt
        (σ.map fun p => (p.1, (⟨g (L *ᵥ p.2), some t⟩ : St (Vec n)))) = .ok ⟨μ, some t⟩ := by
    unfold SpkfEnv.predMean
    cases hi : f.iterateMean
    · exact ⟨g 0, by simp, by simp, by simp [hg0]⟩
    · refine ⟨_, fun _ => rfl, by simp, ?_⟩
      simp only [if_true]
      obtain ⟨⟨w0, s0⟩, l, rfl⟩ := List.exists_cons_of_ne_nil hne
      rw [hpl, hmi, List.map_cons, C13_mean_state_vector]
      · congr 2
        simp [wsum, Function.comp_def]
      · simpa [wsum, Function.comp_def] using h0
  obtain ⟨μ, hμ1, hμ2, hmean⟩ := key
  refine ⟨μ, hμ1, hμ2, ?_⟩
  have hcov : f.predCov ⟨μ, some t⟩ (σ.map fun p => (p.1, (⟨g (L *ᵥ p.2), some t⟩ : St (Vec n))))
      = wsum σ fun z => vecMulVec (g (L *ᵥ z) - μ) (g (L *ᵥ z) - μ) := by
    unfold SpkfEnv.predCov
    rw [wsum_map σ (fun s => (⟨g (L *ᵥ s), some t⟩ : St (Vec n)))]
    congr 1
    funext s
    simp only [hmi]
    rw [← neg_sub, neg_vecMulVec, vecMulVec_neg, neg_neg]
  have hsym : (wsum σ fun z => vecMulVec (g (L *ᵥ z) - μ) (g (L *ᵥ z) - μ)).PosSemidef :=
    wsum_psd σ (fun p hp => (hpos p hp).le) fun z => g (L *ᵥ z) - μ
  unfold SpkfEnv.predict
  simp only [hargs, bind, Except.bind]
  unfold SpkfEnv.propagate
  simp only [hL, hσ, bind, Except.bind]
  rw [hprop, hmean]
  simp only [hcov]
  rw [symmetrize_eq (psd_symm hsym)]

/-- **C109 (predicted mean).** Let the prior error and the input error be jointly normal with covariance
`diag(P, Q)`, and let the process model be, in those errors, a polynomial of degree at most that of the method (3, or 5
for Gauss-Hermite). Then the predicted mean is the exact expectation of the propagated state. -/
theorem C109_predict_mean (f : SpkfEnv (Vec n) (Vec k) n k) (hf : f.Flat) (hit : f.iterateMean = true)
    (hm : f.method ∈ ["unscented", "cubature", "gh"]) (hn : n ≠ 0)
    (x : SWC (Vec n) n) (hP : x.cov.PosDef) (t : ℝ) (hx : x.state.stamp = some t)
    (u : CInp (Vec k) k) (Q : Mat k k) (hQ : Q.PosDef) (dt : ℝ) (hdt : 0 ≤ dt) (g : Vec (n + k) → Vec n)
    (hg : ∀ δ w, f.evaluate ⟨x.state.value + δ, some t⟩ { u with value := u.value + w } dt
      = ⟨g (Fin.append δ w), some t⟩)
    (hpoly : PolyMap (ruleDegree f.method) g) :
    ∃ P', f.predict x (some u) (some dt) (some Q)
      = .ok { state := ⟨rvMean (normal (blockDiag2 x.cov Q)) g, some (t + dt)⟩, cov := P' } := by
  obtain ⟨L, σ, hLL, hσ, μ, hμ, _, h⟩ := spkf_predict_flat f hf hm hn x hP t hx u Q hQ dt hdt g hg
  rw [hμ hit, gquad_mean (generate_exact hσ) hLL hpoly] at h
  exact ⟨_, h⟩

/-- **C109 (mean not iterated).** With `iterate_mean = False` the predicted mean is the model at the old mean; it
differs from the expectation as soon as the model is not affine (see `C109_not_iterated_biased`). -/
theorem C109_predict_not_iterated (f : SpkfEnv (Vec n) (Vec k) n k) (hf : f.Flat) (hit : f.iterateMean = false)
    (hm : f.method ∈ ["unscented", "cubature", "gh"]) (hn : n ≠ 0)
    (x : SWC (Vec n) n) (hP : x.cov.PosDef) (t : ℝ) (hx : x.state.stamp = some t)
    (u : CInp (Vec k) k) (Q : Mat k k) (hQ : Q.PosDef) (dt : ℝ) (hdt : 0 ≤ dt) (g : Vec (n + k) → Vec n)
    (hg : ∀ δ w, f.evaluate ⟨x.state.value + δ, some t⟩ { u with value := u.value + w } dt
      = ⟨g (Fin.append δ w), some t⟩) :
    ∃ P', f.predict x (some u) (some dt) (some Q)
      = .ok { state := ⟨g 0, some (t + dt)⟩, cov := P' } := by
  obtain ⟨L, σ, hLL, hσ, μ, _, hμ, h⟩ := spkf_predict_flat f hf hm hn x hP t hx u Q hQ dt hdt g hg
  rw [hμ hit] at h
  exact ⟨_, h⟩

/-- **C109 (predicted covariance).** If twice the degree of the model is within the degree of the method (quadratic
models for Gauss-Hermite, affine ones for the others), the reported covariance is exactly the mean square deviation
of the propagated state from the reported mean, `E[(g - x̂')(g - x̂')ᵀ]`, whether or not the mean is iterated. -/
theorem C109_predict_cov (f : SpkfEnv (Vec n) (Vec k) n k) (hf : f.Flat)
    (hm : f.method ∈ ["unscented", "cubature", "gh"]) (hn : n ≠ 0)
    (x : SWC (Vec n) n) (hP : x.cov.PosDef) (t : ℝ) (hx : x.state.stamp = some t)
    (u : CInp (Vec k) k) (Q : Mat k k) (hQ : Q.PosDef) (dt : ℝ) (hdt : 0 ≤ dt) (g : Vec (n + k) → Vec n)
    (hg : ∀ δ w, f.evaluate ⟨x.state.value + δ, some t⟩ { u with value := u.value + w } dt
      = ⟨g (Fin.append δ w), some t⟩)
    (d : ℕ) (hpoly : PolyMap d g) (hd : 2 * d ≤ ruleDegree f.method) (x' : SWC (Vec n) n)
    (h : f.predict x (some u) (some dt) (some Q) = .ok x') :
    x'.cov = rvCross (normal (blockDiag2 x.cov Q)) (fun v => g v - x'.state.value) (fun v => g v - x'.state.value) := by
  obtain ⟨L, σ, hLL, hσ, μ, _, _, h'⟩ := spkf_predict_flat f hf hm hn x hP t hx u Q hQ dt hdt g hg
  rw [h'] at h
  cases h
  simp only
  have hp : PolyMap d (fun v => g v - μ) := fun i => (hpoly i).sub (PolyFn.const d (μ i))
  exact gquad_cross (generate_exact hσ) hLL hp hp (by omega)

/-! ### Correction -/

theorem evalPoints_total {ev : Vec n → Option (Vec m)} {h : Vec n → Vec m} (hh : ∀ s, ev s = some (h s))
    (l : Weighted (Vec n)) : evalPoints ev l = .ok (l.map fun p => (p.1, (p.2, h p.2))) := by
  induction l with
  | nil => rfl
  | cons p l ih =>
    obtain ⟨w, s⟩ := p
    simp only [evalPoints, hh, ih]
    rfl

/-- What a correction computes on vectors, for any measurement function. -/
theorem spkf_correct_flat (f : SpkfEnv (Vec n) U n k) (hplus : ∀ x dx, f.plus x dx = x + dx)
    (hm : f.method ∈ ["unscented", "cubature", "gh"]) (hn : n ≠ 0)
    (x : SWC (Vec n) n) (hP : x.cov.PosDef) (t : ℝ) (hx : x.state.stamp = some t)
    (model : MeasModel (Vec n) n m) (hR : (model.covariance x.state).PosDef) (h : Vec n → Vec m)
    (hh : ∀ δ, model.evaluate ⟨x.state.value + δ, some t⟩ = some (h δ)) :
    ∃ L σ, L * Lᵀ = x.cov ∧ generateSigmapoints n f.method = .ok σ ∧
      ∃ (ym : Vec m) (Pyy : Mat m m) (Pxy : Mat n m), (ym = wsum σ fun z => h (L *ᵥ z)) ∧
        (Pyy = (wsum σ fun z => vecMulVec (h (L *ᵥ z) - ym) (h (L *ᵥ z) - ym)) + model.covariance x.state) ∧
        Pxy = (wsum σ fun z => vecMulVec (L *ᵥ z) (h (L *ᵥ z) - ym)) ∧ Pyy.PosDef ∧
        ∀ y : Vec m, f.correct x ⟨m, y, some t, model⟩ none (some false) = .ok
          { state := ⟨x.state.value + (Pxy * Pyy⁻¹) *ᵥ (y - ym), some t⟩
            cov := x.cov - Pxy * Pyy⁻¹ * Pxyᵀ } := by
  obtain ⟨L, hL, hLL⟩ := chol_ok hP
  obtain ⟨σ, hσ⟩ := generate_total (n := n) hn hm
  obtain ⟨⟨h0, h1, h2⟩, hpos, hne⟩ := generate_ok hσ
  set ym := wsum σ fun z => h (L *ᵥ z) with hym
  set Pyy := (wsum σ fun z => vecMulVec (h (L *ᵥ z) - ym) (h (L *ᵥ z) - ym)) + model.covariance x.state with hPyy
  set Pxy := wsum σ fun z => vecMulVec (L *ᵥ z) (h (L *ᵥ z) - ym) with hPxy
  have hpd : Pyy.PosDef :=
    PosDef.posSemidef_add (wsum_psd σ (fun p hp => (hpos p hp).le) fun z => h (L *ᵥ z) - ym) hR
  refine ⟨L, σ, hLL, hσ, ym, Pyy, Pxy, rfl, rfl, rfl, hpd, fun y => ?_⟩
  have hst : x.state = ⟨x.state.value, some t⟩ := by rw [← hx]
  have hadv : f.advance x ⟨m, y, some t, model⟩ none = .ok x := by
    unfold SpkfEnv.advance
    simp [hx]
  have hev : model.evaluate x.state = some (h 0) := by
    rw [hst]
    simpa using hh 0
  set ys : Weighted (Vec n × Vec m) := (σ.map fun p => (p.1, L *ᵥ p.2)).map fun p => (p.1, (p.2, h p.2)) with hys
  have hw : ∀ {M : Type} [AddCommGroup M] [Module ℝ M] (g : Vec n × Vec m → M),
      wsum ys g = wsum σ fun s => g (L *ᵥ s, h (L *ᵥ s)) := by
    intro M _ _ g
    rw [hys, wsum_map (g := fun s => (s, h s)), wsum_map]
  have e1 : (wsum ys fun p => p.2) = ym := hw _
  have hsymP : x.covᵀ = x.cov := psd_symm hP.posSemidef
  have hfy : f.fuseYs x ⟨m, y, some t, model⟩ false ys = .ok
      { state := ⟨x.state.value + (Pxy * Pyy⁻¹) *ᵥ (y - ym), some t⟩
        cov := x.cov - Pxy * Pyy⁻¹ * Pxyᵀ } := by
    unfold SpkfEnv.fuseYs
    simp only [bind, Except.bind, maybeOutlier, Bool.false_eq_true, if_false]
    show f.update x (y - wsum ys fun p => p.2)
      ((wsum ys fun p => vecMulVec (p.2 - wsum ys fun p => p.2) (p.2 - wsum ys fun p => p.2)) + model.covariance x.state)
      (wsum ys fun p => vecMulVec p.1 (p.2 - wsum ys fun p => p.2)) = _
    rw [e1, hw, hw]
    simp only
    rw [← hPyy, ← hPxy]
    unfold SpkfEnv.update
    rw [solve_ok (by rw [det_transpose]; exact pd_det hpd)]
    simp only [bind, Except.bind, pure, Except.pure, hplus, hx]
    have hK : ((Pyyᵀ)⁻¹ * Pxyᵀ)ᵀ = Pxy * Pyy⁻¹ := by
      rw [transpose_mul, transpose_transpose, transpose_nonsing_inv, transpose_transpose]
    rw [hK]
    have hs : (x.cov - Pxy * Pyy⁻¹ * Pxyᵀ)ᵀ = x.cov - Pxy * Pyy⁻¹ * Pxyᵀ := by
      rw [transpose_sub, hsymP, transpose_mul, transpose_mul, transpose_transpose, transpose_nonsing_inv,
        psd_symm hpd.posSemidef, Matrix.mul_assoc]
    rw [symmetrize_eq hs]
  unfold SpkfEnv.correct
  rw [hadv]
  simp only [bind, Except.bind, Option.getD_some]
  unfold SpkfEnv.fuse
  rw [hσ, hL]
  simp only [bind, Except.bind, hev]
  rw [evalPoints_total (h := h) (by
    intro s
    rw [hplus, hx]
    exact hh s)]
  exact hfy

/-- The measurement's covariance under a normal state error: `E[(h - E h)(h - E h)ᵀ]`. -/
noncomputable def covOf (P : Mat n n) (h : Vec n → Vec m) : Mat m m :=
  rvCross (normal P) (fun δ => h δ - rvMean (normal P) h) (fun δ => h δ - rvMean (normal P) h)

/-- The covariance of the state error with the measurement: `E[δ (h - E h)ᵀ]`. -/
noncomputable def crossOf (P : Mat n n) (h : Vec n → Vec m) : Mat n m :=
  rvCross (normal P) (fun δ => δ) (fun δ => h δ - rvMean (normal P) h)

/-- **C110 (correction).** Let the prior error be normal with covariance `P` and the measurement, as a function of that
error, a polynomial `h` with twice its degree within the degree of the method (quadratic for Gauss-Hermite, affine for
the others). Then the correction uses the exact moments: mean `x̂ + C_xh (C_hh + R)⁻¹ (y - E h)`, covariance
`P - C_xh (C_hh + R)⁻¹ C_xhᵀ`. -/
theorem C110_correct (f : SpkfEnv (Vec n) U n k) (hplus : ∀ x dx, f.plus x dx = x + dx)
    (hm : f.method ∈ ["unscented", "cubature", "gh"]) (hn : n ≠ 0)
    (x : SWC (Vec n) n) (hP : x.cov.PosDef) (t : ℝ) (hx : x.state.stamp = some t)
    (model : MeasModel (Vec n) n m) (hR : (model.covariance x.state).PosDef) (h : Vec n → Vec m)
    (hh : ∀ δ, model.evaluate ⟨x.state.value + δ, some t⟩ = some (h δ))
    (d : ℕ) (hpoly : PolyMap d h) (hd1 : 1 ≤ d) (hd : 2 * d ≤ ruleDegree f.method) (y : Vec m) :
    f.correct x ⟨m, y, some t, model⟩ none (some false) = .ok
      { state := ⟨x.state.value + (crossOf x.cov h * (covOf x.cov h + model.covariance x.state)⁻¹) *ᵥ
                    (y - rvMean (normal x.cov) h), some t⟩
        cov := x.cov - crossOf x.cov h * (covOf x.cov h + model.covariance x.state)⁻¹ * (crossOf x.cov h)ᵀ } := by
  obtain ⟨L, σ, hLL, hσ, ym, Pyy, Pxy, hym, hPyy, hPxy, _, hc⟩ :=
    spkf_correct_flat f hplus hm hn x hP t hx model hR h hh
  have e1 : ym = rvMean (normal x.cov) h := by
    rw [hym]
    exact gquad_mean (generate_exact hσ) hLL fun i => (hpoly i).mono (by omega)
  have hp : PolyMap d (fun v => h v - ym) := fun i => (hpoly i).sub (PolyFn.const d (ym i))
  have e2 : Pyy = covOf x.cov h + model.covariance x.state := by
    rw [hPyy, gquad_cross (generate_exact hσ) hLL hp hp (by omega), e1]
    rfl
  have e3 : Pxy = crossOf x.cov h := by
    rw [hPxy, gquad_cross (generate_exact hσ) hLL (a := fun v => v) (fun i => PolyFn.coord i) hp (by omega), e1]
    rfl
  rw [hc, e1, e2, e3]

/-- **C110 (quadratic measurements, every method).** For measurements up to one degree below the method (quadratic for
"unscented" and "cubature", quartic for "gh") the correction is still `x̂ + C_xh S⁻¹ (y - E h)` with the exact `E h` and
`C_xh`, for a positive definite `S` that does not depend on the measured value. -/
theorem C110_correct_gain (f : SpkfEnv (Vec n) U n k) (hplus : ∀ x dx, f.plus x dx = x + dx)
    (hm : f.method ∈ ["unscented", "cubature", "gh"]) (hn : n ≠ 0)
    (x : SWC (Vec n) n) (hP : x.cov.PosDef) (t : ℝ) (hx : x.state.stamp = some t)
    (model : MeasModel (Vec n) n m) (hR : (model.covariance x.state).PosDef) (h : Vec n → Vec m)
    (hh : ∀ δ, model.evaluate ⟨x.state.value + δ, some t⟩ = some (h δ))
    (d : ℕ) (hpoly : PolyMap d h) (hd : d + 1 ≤ ruleDegree f.method) :
    ∃ S : Mat m m, S.PosDef ∧ (S - model.covariance x.state).PosSemidef ∧
      ∀ y : Vec m, f.correct x ⟨m, y, some t, model⟩ none (some false) = .ok
        { state := ⟨x.state.value + (crossOf x.cov h * S⁻¹) *ᵥ (y - rvMean (normal x.cov) h), some t⟩
          cov := x.cov - crossOf x.cov h * S⁻¹ * (crossOf x.cov h)ᵀ } := by
  obtain ⟨L, σ, hLL, hσ, ym, Pyy, Pxy, hym, hPyy, hPxy, hpd, hc⟩ :=
    spkf_correct_flat f hplus hm hn x hP t hx model hR h hh
  obtain ⟨_, hpos, _⟩ := generate_ok hσ
  have e1 : ym = rvMean (normal x.cov) h := by
    rw [hym]
    exact gquad_mean (generate_exact hσ) hLL fun i => (hpoly i).mono (by omega)
  have hp : PolyMap d (fun v => h v - ym) := fun i => (hpoly i).sub (PolyFn.const d (ym i))
  have e3 : Pxy = crossOf x.cov h := by
    rw [hPxy, gquad_cross (generate_exact hσ) hLL (a := fun v => v) (fun i => PolyFn.coord i) hp (by omega), e1]
    rfl
  refine ⟨Pyy, hpd, ?_, fun y => ?_⟩
  · rw [hPyy, add_sub_cancel_right]
    exact wsum_psd σ (fun p hp => (hpos p hp).le) fun z => h (L *ᵥ z) - ym
  · rw [hc, e1, e3]


/-! ### Honest and best -/

/-- The situation a correction is meant for: the true state is `x̂ + δ` with `δ` normal with covariance `P`, the
measurement is `h(δ) + ν` with zero-mean noise `ν` of covariance `R`, uncorrelated with `δ` and with `h(δ)`. -/
structure PolyScene {Ω : Type} [MeasurableSpace Ω] (μ : Measure Ω) (P : Mat n n) (R : Mat m m) (h : Vec n → Vec m)
    (δ : Ω → Vec n) (ν : Ω → Vec m) : Prop where
  meas : Measurable δ
  law : μ.map δ = normal P
  sq : SqInt μ ν
  mean : rvMean μ ν = 0
  cov : rvCross μ ν ν = R
  crossδ : rvCross μ δ ν = 0
  crossh : rvCross μ (fun ω => h (δ ω)) ν = 0

section
variable {Ω : Type} [MeasurableSpace Ω] {μ : Measure Ω} [IsProbabilityMeasure μ]

theorem PolyFn.pull {d : ℕ} {q : Vec n → ℝ} (hq : PolyFn d q) {P : Mat n n} {δ : Ω → Vec n} (hδ : Measurable δ)
    (law : μ.map δ = normal P) : ∫ ω, q (δ ω) ∂μ = ∫ v, q v ∂(normal P) := by
  rw [← law, integral_map hδ.aemeasurable hq.continuous.aestronglyMeasurable]

theorem PolyMap.pull_sq {d : ℕ} {g : Vec n → Vec m} (hg : PolyMap d g) {P : Mat n n} (hP : P.PosDef) {δ : Ω → Vec n}
    (hδ : Measurable δ) (law : μ.map δ = normal P) : SqInt μ (fun ω => g (δ ω)) := by
  obtain ⟨L, _, hL⟩ := chol_ok hP
  intro i
  have := (hg i).memLp hL
  rw [← law] at this
  exact this.comp_of_map hδ.aemeasurable

theorem PolyMap.pull_mean {d : ℕ} {g : Vec n → Vec m} (hg : PolyMap d g) {P : Mat n n} {δ : Ω → Vec n}
    (hδ : Measurable δ) (law : μ.map δ = normal P) : rvMean μ (fun ω => g (δ ω)) = rvMean (normal P) g := by
  funext i
  exact (hg i).pull hδ law

theorem PolyMap.pull_cross {d e l : ℕ} {g : Vec n → Vec m} {g' : Vec n → Vec l} (hg : PolyMap d g) (hg' : PolyMap e g')
    {P : Mat n n} {δ : Ω → Vec n} (hδ : Measurable δ) (law : μ.map δ = normal P) :
    rvCross μ (fun ω => g (δ ω)) (fun ω => g' (δ ω)) = rvCross (normal P) g g' := by
  ext i j
  exact ((hg i).mul (hg' j)).pull hδ law

theorem polyMap_id : PolyMap 1 (fun v : Vec n => v) := fun i => PolyFn.coord i

/-- The innovation `y - E h` of a scene: mean zero, covariance `C_hh + R`, cross covariance `C_xh`. -/
theorem scene_innovation {P : Mat n n} (hP : P.PosDef) {R : Mat m m} {h : Vec n → Vec m} {d : ℕ} (hpoly : PolyMap d h)
    {δ : Ω → Vec n} {ν : Ω → Vec m} (sc : PolyScene μ P R h δ ν) :
    SqInt μ δ ∧ SqInt μ (fun ω => h (δ ω) + ν ω - rvMean (normal P) h) ∧ rvMean μ δ = 0 ∧ rvCross μ δ δ = P ∧
      rvMean μ (fun ω => h (δ ω) + ν ω - rvMean (normal P) h) = 0 ∧
      rvCross μ δ (fun ω => h (δ ω) + ν ω - rvMean (normal P) h) = crossOf P h ∧
      rvCross μ (fun ω => h (δ ω) + ν ω - rvMean (normal P) h) (fun ω => h (δ ω) + ν ω - rvMean (normal P) h)
        = covOf P h + R := by
  set c := rvMean (normal P) h with hc
  have hp : PolyMap d (fun v => h v - c) := fun i => (hpoly i).sub (PolyFn.const d (c i))
  have sδ : SqInt μ δ := polyMap_id.pull_sq hP sc.meas sc.law
  have sh : SqInt μ (fun ω => h (δ ω)) := hpoly.pull_sq hP sc.meas sc.law
  have shc : SqInt μ (fun ω => h (δ ω) - c) := hp.pull_sq hP sc.meas sc.law
  have mδ : rvMean μ δ = 0 := by
    rw [← (normal_moments hP).1]
    exact polyMap_id.pull_mean sc.meas sc.law
  have e : (fun ω => h (δ ω) + ν ω - c) = fun ω => (h (δ ω) - c) + ν ω := by
    funext ω
    abel
  have mh : rvMean μ (fun ω => h (δ ω) - c) = 0 := by
    rw [rvMean_sub sh (SqInt.const c), hpoly.pull_mean sc.meas sc.law]
    funext i
    simp [rvMean, hc]
  have hcν : rvCross μ (fun ω => h (δ ω) - c) ν = 0 := by
    rw [rvCross_sub_left sh (SqInt.const c) sc.sq, sc.crossh, zero_sub, neg_eq_zero]
    ext i j
    show ∫ ω, c i * ν ω j ∂μ = 0
    rw [integral_const_mul]
    have := congrFun sc.mean j
    rw [show ∫ ω, ν ω j ∂μ = 0 from this, mul_zero]
  rw [e]
  refine ⟨sδ, shc.add sc.sq, mδ, ?_, ?_, ?_, ?_⟩
  · rw [← (normal_moments hP).2]
    exact polyMap_id.pull_cross polyMap_id sc.meas sc.law
  · rw [rvMean_add shc sc.sq, mh, sc.mean, add_zero]
  · rw [rvCross_add_right shc sc.sq sδ, sc.crossδ, add_zero]
    exact polyMap_id.pull_cross hp sc.meas sc.law
  · rw [rvCross_add_left shc sc.sq (shc.add sc.sq), rvCross_add_right shc sc.sq shc, rvCross_add_right shc sc.sq sc.sq,
      hcν, rvCross_symm _ ν, hcν, sc.cov, transpose_zero, add_zero, zero_add]
    congr 1
    exact hp.pull_cross hp sc.meas sc.law

/-- Mean square error of `δ - A z` for a zero-mean `z`. -/
theorem affine_error {P : Mat n n} {S : Mat m m} {C : Mat n m} {δ : Ω → Vec n} {z : Ω → Vec m} (sδ : SqInt μ δ)
    (sz : SqInt μ z) (hδ : rvCross μ δ δ = P) (hC : rvCross μ δ z = C) (hS : rvCross μ z z = S) (A : Mat n m) :
    rvCross μ (fun ω => δ ω - A *ᵥ z ω) (fun ω => δ ω - A *ᵥ z ω) = P - A * Cᵀ - C * Aᵀ + A * S * Aᵀ := by
  have sA := sz.mulVec A
  rw [rvCross_sub_left sδ sA (sδ.sub sA), rvCross_sub_right sδ sA sδ, rvCross_sub_right sδ sA sA,
    rvCross_mulVec_left sz sδ, rvCross_mulVec_left sz sA, rvCross_mulVec_right sz sδ, rvCross_mulVec_right sz sz,
    rvCross_symm δ z, hδ, hC, hS, Matrix.mul_assoc]
  abel

/-- **C110 (honest).** In the situation it is meant for, and for measurement functions within the reach of the method,
the correction is unbiased and the covariance it reports is the covariance of its error. -/
theorem C110_honest (f : SpkfEnv (Vec n) U n k) (hplus : ∀ x dx, f.plus x dx = x + dx)
    (hm : f.method ∈ ["unscented", "cubature", "gh"]) (hn : n ≠ 0)
    (x : SWC (Vec n) n) (hP : x.cov.PosDef) (t : ℝ) (hx : x.state.stamp = some t)
    (model : MeasModel (Vec n) n m) (hR : (model.covariance x.state).PosDef) (h : Vec n → Vec m)
    (hh : ∀ δ, model.evaluate ⟨x.state.value + δ, some t⟩ = some (h δ))
    (d : ℕ) (hpoly : PolyMap d h) (hd1 : 1 ≤ d) (hd : 2 * d ≤ ruleDegree f.method)
    (δ : Ω → Vec n) (ν : Ω → Vec m) (sc : PolyScene μ x.cov (model.covariance x.state) h δ ν) :
    ∃ (est : Ω → Vec n) (P' : Mat n n),
      (∀ ω, f.correct x ⟨m, h (δ ω) + ν ω, some t, model⟩ none (some false) = .ok ⟨⟨est ω, some t⟩, P'⟩) ∧
      rvMean μ (fun ω => (x.state.value + δ ω) - est ω) = 0 ∧
      rvCross μ (fun ω => (x.state.value + δ ω) - est ω) (fun ω => (x.state.value + δ ω) - est ω) = P' := by
  obtain ⟨sδ, sz, mδ, cδ, mz, cδz, czz⟩ := scene_innovation hP hpoly sc
  set z := fun ω => h (δ ω) + ν ω - rvMean (normal x.cov) h with hz
  set C := crossOf x.cov h with hC
  set S := covOf x.cov h + model.covariance x.state with hS
  have hpd : S.PosDef := by
    obtain ⟨L, _, hL⟩ := chol_ok hP
    refine PosDef.posSemidef_add (rvCross_psd ?_) hR
    exact PolyMap.sqInt (d := d) (fun i => (hpoly i).sub (PolyFn.const d _)) hL
  refine ⟨fun ω => x.state.value + (C * S⁻¹) *ᵥ z ω, x.cov - C * S⁻¹ * Cᵀ,
    fun ω => C110_correct f hplus hm hn x hP t hx model hR h hh d hpoly hd1 hd _, ?_⟩
  have e : (fun ω => x.state.value + δ ω - (x.state.value + (C * S⁻¹) *ᵥ z ω)) = fun ω => δ ω - (C * S⁻¹) *ᵥ z ω := by
    funext ω
    abel
  rw [e]
  constructor
  · rw [rvMean_sub sδ (sz.mulVec _), rvMean_mulVec sz, mδ, mz, mulVec_zero, sub_zero]
  · rw [affine_error sδ sz cδ cδz czz]
    have hu : S⁻¹ * S = 1 := nonsing_inv_mul _ (unit_of_det (pd_det hpd))
    have ht : (C * S⁻¹)ᵀ = S⁻¹ * Cᵀ := by
      rw [transpose_mul, transpose_nonsing_inv, psd_symm hpd.posSemidef]
    rw [ht, Matrix.mul_assoc C S⁻¹ S, hu, Matrix.mul_one, ← Matrix.mul_assoc]
    abel

/-- **C110 (best).** No estimator that is affine in the measurement, `A y + b`, has a smaller mean square error than the
covariance the correction reports (which by `C110_honest` is its own error covariance). -/
theorem C110_best (f : SpkfEnv (Vec n) U n k) (hplus : ∀ x dx, f.plus x dx = x + dx)
    (hm : f.method ∈ ["unscented", "cubature", "gh"]) (hn : n ≠ 0)
    (x : SWC (Vec n) n) (hP : x.cov.PosDef) (t : ℝ) (hx : x.state.stamp = some t)
    (model : MeasModel (Vec n) n m) (hR : (model.covariance x.state).PosDef) (h : Vec n → Vec m)
    (hh : ∀ δ, model.evaluate ⟨x.state.value + δ, some t⟩ = some (h δ))
    (d : ℕ) (hpoly : PolyMap d h) (hd1 : 1 ≤ d) (hd : 2 * d ≤ ruleDegree f.method)
    (δ : Ω → Vec n) (ν : Ω → Vec m) (sc : PolyScene μ x.cov (model.covariance x.state) h δ ν)
    (y : Vec m) (x' : SWC (Vec n) n) (hc : f.correct x ⟨m, y, some t, model⟩ none (some false) = .ok x')
    (A : Mat n m) (b : Vec n) :
    (rvCross μ (fun ω => (x.state.value + δ ω) - (A *ᵥ (h (δ ω) + ν ω) + b))
        (fun ω => (x.state.value + δ ω) - (A *ᵥ (h (δ ω) + ν ω) + b)) - x'.cov).PosSemidef := by
  obtain ⟨sδ, sz, mδ, cδ, mz, cδz, czz⟩ := scene_innovation hP hpoly sc
  rw [C110_correct f hplus hm hn x hP t hx model hR h hh d hpoly hd1 hd] at hc
  cases hc
  simp only
  set z := fun ω => h (δ ω) + ν ω - rvMean (normal x.cov) h with hz
  set C := crossOf x.cov h with hC
  set S := covOf x.cov h + model.covariance x.state with hS
  have hpd : S.PosDef := by
    obtain ⟨L, _, hL⟩ := chol_ok hP
    refine PosDef.posSemidef_add (rvCross_psd ?_) hR
    exact PolyMap.sqInt (d := d) (fun i => (hpoly i).sub (PolyFn.const d _)) hL
  set c : Vec n := x.state.value - A *ᵥ rvMean (normal x.cov) h - b with hc
  have e : (fun ω => x.state.value + δ ω - (A *ᵥ (h (δ ω) + ν ω) + b)) = fun ω => (δ ω - A *ᵥ z ω) + c := by
    funext ω
    rw [hz, hc]
    simp only [mulVec_sub, mulVec_add]
    abel
  have se : SqInt μ (fun ω => δ ω - A *ᵥ z ω) := sδ.sub (sz.mulVec A)
  have me : rvMean μ (fun ω => δ ω - A *ᵥ z ω) = 0 := by
    rw [rvMean_sub sδ (sz.mulVec _), rvMean_mulVec sz, mδ, mz, mulVec_zero, sub_zero]
  have hec : rvCross μ (fun ω => δ ω - A *ᵥ z ω) (fun _ => c) = 0 := by
    ext i j
    show ∫ ω, (δ ω - A *ᵥ z ω) i * c j ∂μ = 0
    rw [integral_mul_const]
    rw [show ∫ ω, (δ ω - A *ᵥ z ω) i ∂μ = 0 from congrFun me i, zero_mul]
  have hcc : (rvCross μ (fun _ : Ω => c) (fun _ => c)).PosSemidef := rvCross_psd (SqInt.const c)
  rw [e, rvCross_add_left se (SqInt.const c) (se.add (SqInt.const c)), rvCross_add_right se (SqInt.const c) se,
    rvCross_add_right se (SqInt.const c) (SqInt.const c), hec, rvCross_symm _ (fun _ => c), hec, transpose_zero, add_zero,
    zero_add, affine_error sδ sz cδ cδz czz]
  have hu : S⁻¹ * S = 1 := nonsing_inv_mul _ (unit_of_det (pd_det hpd))
  have hu' : S * S⁻¹ = 1 := mul_nonsing_inv _ (unit_of_det (pd_det hpd))
  have ht : (S⁻¹)ᵀ = S⁻¹ := by
    rw [transpose_nonsing_inv, psd_symm hpd.posSemidef]
  have key : x.cov - A * Cᵀ - C * Aᵀ + A * S * Aᵀ - (x.cov - C * S⁻¹ * Cᵀ) = (A - C * S⁻¹) * S * (A - C * S⁻¹)ᵀ := by
    have h1 : (A - C * S⁻¹) * S = A * S - C := by
      rw [Matrix.sub_mul, Matrix.mul_assoc C, hu, Matrix.mul_one]
    rw [h1, transpose_sub, transpose_mul, ht, Matrix.mul_sub, Matrix.sub_mul, Matrix.sub_mul, ← Matrix.mul_assoc (A * S),
      Matrix.mul_assoc A S S⁻¹, hu', Matrix.mul_one, ← Matrix.mul_assoc C]
    abel
  have : x.cov - A * Cᵀ - C * Aᵀ + A * S * Aᵀ + rvCross μ (fun _ : Ω => c) (fun _ => c) - (x.cov - C * S⁻¹ * Cᵀ)
      = (A - C * S⁻¹) * S * (A - C * S⁻¹)ᵀ + rvCross μ (fun _ : Ω => c) (fun _ => c) := by
    rw [← key]
    abel
  rw [this]
  exact psd_add (psd_conj hpd.posSemidef _) hcc

end


/-! ### Concrete cases, and where the exactness ends -/

/-- The one by one matrix `a`. -/
def scalM (a : ℝ) : Mat 1 1 := Matrix.of fun _ _ => a

@[simp] theorem scalM_apply (a : ℝ) (i j : Fin 1) : scalM a i j = a := rfl

/-- The process `x⁺ = x² + u²`, started at 0. -/
noncomputable def ringSpkf (method : String) (iter : Bool) : SpkfEnv (Vec 1) (Vec 1) 1 1 where
  evaluate x u dt := ⟨fun _ => x.value 0 ^ 2 + u.value 0 ^ 2, x.stamp⟩
  plus x dx := x + dx
  minus x y := x - y
  uplus u w := u + w
  method := method
  rejectOutliers := false
  iterateMean := iter
  chi2ppf99 := fun _ => 6

/-- The propagated state of `ringSpkf` as a function of both errors. -/
def sumSq (v : Vec (1 + 1)) : Vec 1 := fun _ => v 0 ^ 2 + v 1 ^ 2

theorem ringSpkf_flat (method : String) (iter : Bool) : (ringSpkf method iter).Flat :=
  ⟨fun _ _ => rfl, fun _ _ => rfl, fun _ _ => rfl⟩

theorem ring_poly : PolyMap 2 sumSq := by
  intro i
  refine ⟨MvPolynomial.X 0 ^ 2 + MvPolynomial.X 1 ^ 2, ?_, fun v => by simp [sumSq]⟩
  refine (MvPolynomial.totalDegree_add _ _).trans (max_le ?_ ?_) <;>
  · refine (MvPolynomial.totalDegree_pow _ _).trans ?_
    simp

theorem ring_eval (method : String) (iter : Bool) (t : ℝ) (u : CInp (Vec 1) 1) (hu : u.value = 0) (dt : ℝ) (δ w : Vec 1) :
    (ringSpkf method iter).evaluate ⟨(0 : Vec 1) + δ, some t⟩ { u with value := u.value + w } dt
      = ⟨sumSq (Fin.append δ w), some t⟩ := by
  simp only [ringSpkf, hu, zero_add]
  congr 1

theorem blockDiag2_one : blockDiag2 (1 : Mat n n) (1 : Mat k k) = 1 := by
  unfold blockDiag2
  rw [fromBlocks_one]
  exact submatrix_one_equiv _

/-- Moments of two independent standard normal variables. -/
theorem normal2_moment (a b : ℕ) : ∫ z : Vec (1 + 1), z 0 ^ a * z 1 ^ b ∂(normal 1) = gm a * gm b := by
  have h := mono_integral (N := 1 + 1) ![a, b]
  rw [normal_eq_map (L := 1) (by simp)]
  simp only [one_mulVec, Measure.map_id']
  simpa [Fin.prod_univ_two] using h

theorem normal2_integrable (a b : ℕ) : Integrable (fun z : Vec (1 + 1) => z 0 ^ a * z 1 ^ b) (normal 1) := by
  have h := mono_integrable (N := 1 + 1) ![a, b]
  rw [normal_eq_map (L := 1) (by simp)]
  simp only [one_mulVec, Measure.map_id']
  simpa [Fin.prod_univ_two] using h

/-- `E[x² + u²] = 2` and `E[(x² + u² - 2)²] = 4` for standard normal `x`, `u`. -/
theorem ring_moments : rvMean (normal 1) sumSq = (fun _ => 2) ∧
    rvCross (normal 1) (fun v => sumSq v - fun _ => 2) (fun v => sumSq v - fun _ => 2) = scalM 4 := by
  have m20 := normal2_moment 2 0
  have m02 := normal2_moment 0 2
  have m40 := normal2_moment 4 0
  have m04 := normal2_moment 0 4
  have m22 := normal2_moment 2 2
  have i20 := normal2_integrable 2 0
  have i02 := normal2_integrable 0 2
  have i40 := normal2_integrable 4 0
  have i04 := normal2_integrable 0 4
  have i22 := normal2_integrable 2 2
  rw [gm_even.1] at m20 m02 m22
  rw [gm_even.2] at m40 m04
  rw [gm_zero] at m20 m02 m40 m04
  constructor
  · funext i
    show ∫ v : Vec (1 + 1), v 0 ^ 2 + v 1 ^ 2 ∂(normal 1) = 2
    have e : (fun v : Vec (1 + 1) => v 0 ^ 2 + v 1 ^ 2) = fun v => v 0 ^ 2 * v 1 ^ 0 + v 0 ^ 0 * v 1 ^ 2 := by
      funext v
      simp
    rw [e, integral_add i20 i02, m20, m02]
    norm_num
  · ext i j
    show ∫ v : Vec (1 + 1), (v 0 ^ 2 + v 1 ^ 2 - 2) * (v 0 ^ 2 + v 1 ^ 2 - 2) ∂(normal 1) = 4
    have e : (fun v : Vec (1 + 1) => (v 0 ^ 2 + v 1 ^ 2 - 2) * (v 0 ^ 2 + v 1 ^ 2 - 2))
        = fun v => ((v 0 ^ 4 * v 1 ^ 0 + v 0 ^ 0 * v 1 ^ 4) + 2 * (v 0 ^ 2 * v 1 ^ 2))
          - (4 * (v 0 ^ 2 * v 1 ^ 0 + v 0 ^ 0 * v 1 ^ 2) - 4) := by
      funext v
      ring
    rw [e, integral_sub (by fun_prop) (by fun_prop), integral_add (by fun_prop) (by fun_prop), integral_add i40 i04,
      integral_const_mul, integral_sub (by fun_prop) (by fun_prop), integral_const_mul, integral_add i20 i02, m40, m04, m22,
      m20, m02]
    norm_num

/-- A zero input. -/
noncomputable def zeroInp : CInp (Vec 1) 1 := ⟨0, some 0, none⟩

/-- The estimate `x̂ = 0`, `P = 1` at time 0. -/
noncomputable def zeroEst : SWC (Vec 1) 1 := ⟨⟨0, some 0⟩, 1⟩

/-- Non-vacuity of C109: Gauss-Hermite on `x⁺ = x² + u²` returns the exact mean 2 and the exact variance 4. -/
theorem C109_gh_ring : (ringSpkf "gh" true).predict zeroEst (some zeroInp) (some 1) (some 1)
    = .ok { state := ⟨fun _ => 2, some 1⟩, cov := scalM 4 } := by
  have hP : zeroEst.cov.PosDef := PosDef.one
  obtain ⟨P', h⟩ := C109_predict_mean (ringSpkf "gh" true) (ringSpkf_flat _ _) rfl (by simp [ringSpkf]) one_ne_zero zeroEst
    hP 0 rfl zeroInp 1 PosDef.one 1 zero_le_one sumSq (ring_eval _ _ _ _ rfl _)
    (fun i => (ring_poly i).mono (by simp [ringSpkf, ruleDegree]))
  have hc := C109_predict_cov (ringSpkf "gh" true) (ringSpkf_flat _ _) (by simp [ringSpkf]) one_ne_zero zeroEst
    hP 0 rfl zeroInp 1 PosDef.one 1 zero_le_one sumSq (ring_eval _ _ _ _ rfl _) 2 ring_poly
    (by simp [ringSpkf, ruleDegree]) _ h
  have e : blockDiag2 zeroEst.cov (1 : Mat 1 1) = 1 := blockDiag2_one
  rw [e] at h hc
  simp only [ring_moments.1] at h hc
  rw [ring_moments.2] at hc
  rw [h, hc, zero_add]

/-- **C109 (biased without iteration).** With `iterate_mean = False` the prediction of `x⁺ = x² + u²` is 0, for every
method, although the expectation is 2. -/
theorem C109_not_iterated_biased (method : String) (hm : method ∈ ["unscented", "cubature", "gh"]) :
    (∃ P', (ringSpkf method false).predict zeroEst (some zeroInp) (some 1) (some 1)
      = .ok { state := ⟨fun _ => 0, some 1⟩, cov := P' }) ∧
    rvMean (normal (blockDiag2 zeroEst.cov (1 : Mat 1 1))) sumSq = fun _ => 2 := by
  have hP : zeroEst.cov.PosDef := PosDef.one
  constructor
  · obtain ⟨P', h⟩ := C109_predict_not_iterated (ringSpkf method false) (ringSpkf_flat _ _) rfl hm one_ne_zero zeroEst
      hP 0 rfl zeroInp 1 PosDef.one 1 zero_le_one sumSq (ring_eval _ _ _ _ rfl _)
    refine ⟨P', ?_⟩
    have e0 : sumSq 0 = fun _ => 0 := by
      funext i
      simp [sumSq]
    rw [h, zero_add, e0]
  · rw [show blockDiag2 zeroEst.cov (1 : Mat 1 1) = 1 from blockDiag2_one]
    exact ring_moments.1

/-- **C109 (false for cubature).** The cubature filter predicts `x⁺ = x² + u²` with covariance exactly 0, although the
variance is 4: beyond affine models its covariance need not be exact. -/
theorem C109_cubature_zero_cov :
    (ringSpkf "cubature" true).predict zeroEst (some zeroInp) (some 1) (some 1)
      = .ok { state := ⟨fun _ => 2, some 1⟩, cov := 0 } ∧
    rvCross (normal (blockDiag2 zeroEst.cov (1 : Mat 1 1))) (fun v => sumSq v - fun _ => 2) (fun v => sumSq v - fun _ => 2)
      = scalM 4 := by
  have hP : zeroEst.cov.PosDef := PosDef.one
  have e1 : blockDiag2 zeroEst.cov (1 : Mat 1 1) = 1 := blockDiag2_one
  refine ⟨?_, by rw [e1]; exact ring_moments.2⟩
  obtain ⟨L, σ, hLL, hσ, μ, hμ, _, h⟩ := spkf_predict_flat (ringSpkf "cubature" true) (ringSpkf_flat _ _)
    (by simp [ringSpkf]) one_ne_zero zeroEst hP 0 rfl zeroInp 1 PosDef.one 1 zero_le_one sumSq (ring_eval _ _ _ _ rfl _)
  have hm : μ = fun _ => 2 := by
    rw [hμ rfl, gquad_mean (generate_exact hσ) hLL (fun i => (ring_poly i).mono (by simp [ringSpkf, ruleDegree])), e1]
    exact ring_moments.1
  have horth : Lᵀ * L = 1 := by
    rw [e1] at hLL
    exact mul_eq_one_comm.1 hLL
  have hring : ∀ z : Vec (1 + 1), sumSq (L *ᵥ z) = fun _ => z ⬝ᵥ z := by
    intro z
    funext i
    have : (L *ᵥ z) ⬝ᵥ (L *ᵥ z) = z ⬝ᵥ z := by
      rw [dotProduct_mulVec, ← mulVec_transpose, mulVec_mulVec, horth, one_mulVec]
    rw [← this]
    show (L *ᵥ z) 0 ^ 2 + (L *ᵥ z) 1 ^ 2 = ∑ i, (L *ᵥ z) i * (L *ᵥ z) i
    rw [Fin.sum_univ_two]
    ring
  have hpts : ∀ p ∈ σ, p.2 ⬝ᵥ p.2 = 2 := by
    intro p hp
    have hσ' : σ = cubaturePoints (1 + 1) := by
      unfold generateSigmapoints at hσ
      rw [if_neg (by simp [ringSpkf]), if_pos (show (ringSpkf "cubature" true).method = "cubature" from rfl),
        if_neg (by norm_num)] at hσ
      exact (Except.ok.inj hσ).symm
    rw [hσ'] at hp
    have hu : ∀ i : Fin (1 + 1), unitVec i ⬝ᵥ unitVec i = (1 : ℝ) := by
      intro i
      simp [unitVec]
    simp only [cubaturePoints, List.mem_append, List.mem_map] at hp
    rcases hp with ⟨i, _, rfl⟩ | ⟨i, _, rfl⟩
    · simp only [smul_dotProduct, dotProduct_smul, hu, smul_eq_mul, mul_one]
      rw [Real.mul_self_sqrt (by positivity)]
      norm_num
    · simp only [smul_dotProduct, dotProduct_smul, neg_dotProduct, dotProduct_neg, neg_neg, hu, smul_eq_mul, mul_one,
        mul_neg]
      rw [Real.mul_self_sqrt (by positivity)]
      norm_num
  rw [h, hm, zero_add]
  congr 2
  rw [wsum_congr σ _ (fun _ => (0 : Mat 1 1))]
  · simp [wsum]
  · intro p hp
    rw [hring, hpts p hp, sub_self]
    ext i j
    simp [vecMulVec]


/-- Non-vacuity of C110: for all positive definite `P`, `R` and every polynomial `h` the situation exists, with
independent normal errors. -/
theorem polyScene_exists {P : Mat n n} (hP : P.PosDef) {R : Mat m m} (hR : R.PosDef) {h : Vec n → Vec m} {d : ℕ}
    (hpoly : PolyMap d h) :
    PolyScene ((normal P).prod (normal R)) P R h (fun ω => ω.1) (fun ω => ω.2) := by
  obtain ⟨L, _, hL⟩ := chol_ok hR
  have hν : SqInt ((normal P).prod (normal R)) (fun ω => ω.2) := fun i => ((normal_sqInt_id hL) i).comp_snd _
  have mν : ∀ j, ∫ v, v j ∂(normal R) = 0 := fun j => congrFun (normal_moments hR).1 j
  have hprod : ∀ (q : Vec n → ℝ) (j : Fin m), ∫ ω, q ω.1 * ω.2 j ∂((normal P).prod (normal R)) = 0 := by
    intro q j
    rw [integral_prod_mul (f := q) (g := fun v : Vec m => v j), mν, mul_zero]
  refine ⟨measurable_fst, ?_, hν, ?_, ?_, ?_, ?_⟩
  · exact Measure.fst_prod
  · funext j
    have := hprod (fun _ => 1) j
    simpa [rvMean] using this
  · ext i j
    have h1 := integral_prod_mul (μ := normal P) (ν := normal R) (fun _ => (1 : ℝ)) (fun v : Vec m => v i * v j)
    have h2 := congrFun (congrFun (normal_moments hR).2 i) j
    simp only [one_mul, integral_const, probReal_univ, smul_eq_mul] at h1
    show ∫ ω : Vec n × Vec m, ω.2 i * ω.2 j ∂((normal P).prod (normal R)) = R i j
    rw [h1]
    exact h2
  · ext i j
    exact hprod (fun v => v i) j
  · ext i j
    exact hprod (fun v => h v i) j

/-- The measurement `x + x²` with unit noise. -/
noncomputable def bendMeas : MeasModel (Vec 1) 1 1 where
  evaluate x := some fun _ => x.value 0 + x.value 0 ^ 2
  jacobian x := fun _ _ => 1 + 2 * x.value 0
  covariance _ := 1

/-- The measurement as a function of the error at `x̂ = 0`. -/
def bend (δ : Vec 1) : Vec 1 := fun _ => δ 0 + δ 0 ^ 2

theorem bend_poly : PolyMap 2 bend := by
  intro i
  refine ⟨MvPolynomial.X 0 + MvPolynomial.X 0 ^ 2, ?_, fun v => by simp [bend]⟩
  refine (MvPolynomial.totalDegree_add _ _).trans (max_le ?_ ?_)
  · simp
  · refine (MvPolynomial.totalDegree_pow _ _).trans ?_
    simp

theorem normal1_moment (a : ℕ) : ∫ z : Vec 1, z 0 ^ a ∂(normal 1) = gm a := by
  have h := mono_integral (N := 1) ![a]
  rw [normal_eq_map (L := 1) (by simp)]
  simp only [one_mulVec, Measure.map_id']
  simpa using h

theorem normal1_integrable (a : ℕ) : Integrable (fun z : Vec 1 => z 0 ^ a) (normal 1) := by
  have h := mono_integrable (N := 1) ![a]
  rw [normal_eq_map (L := 1) (by simp)]
  simp only [one_mulVec, Measure.map_id']
  simpa using h

theorem bend_moments : rvMean (normal 1) bend = (fun _ => 1) ∧ crossOf 1 bend = scalM 1 ∧
    covOf 1 bend = scalM 3 := by
  have m1 : ∫ z : Vec 1, z 0 ^ 1 ∂(normal 1) = 0 := by rw [normal1_moment, gm_odd (by decide)]
  have m2 : ∫ z : Vec 1, z 0 ^ 2 ∂(normal 1) = 1 := by rw [normal1_moment, gm_even.1]
  have m3 : ∫ z : Vec 1, z 0 ^ 3 ∂(normal 1) = 0 := by rw [normal1_moment, gm_odd (by decide)]
  have m4 : ∫ z : Vec 1, z 0 ^ 4 ∂(normal 1) = 3 := by rw [normal1_moment, gm_even.2]
  have i1 := normal1_integrable 1
  have i2 := normal1_integrable 2
  have i3 := normal1_integrable 3
  have i4 := normal1_integrable 4
  have hmean : rvMean (normal 1) bend = (fun _ => 1) := by
    funext i
    show ∫ v : Vec 1, v 0 + v 0 ^ 2 ∂(normal 1) = 1
    have e : (fun v : Vec 1 => v 0 + v 0 ^ 2) = fun v => v 0 ^ 1 + v 0 ^ 2 := by
      funext v
      simp
    rw [e, integral_add i1 i2, m1, m2]
    norm_num
  refine ⟨hmean, ?_, ?_⟩
  · ext i j
    unfold crossOf
    rw [hmean]
    have hi : i = 0 := Subsingleton.elim _ _
    subst hi
    show ∫ v : Vec 1, v 0 * (v 0 + v 0 ^ 2 - 1) ∂(normal 1) = 1
    have e : (fun v : Vec 1 => v 0 * (v 0 + v 0 ^ 2 - 1)) = fun v => v 0 ^ 2 + v 0 ^ 3 - v 0 ^ 1 := by
      funext v
      ring
    rw [e, integral_sub (by fun_prop) (by fun_prop), integral_add i2 i3, m1, m2, m3]
    norm_num
  · ext i j
    unfold covOf
    rw [hmean]
    show ∫ v : Vec 1, (v 0 + v 0 ^ 2 - 1) * (v 0 + v 0 ^ 2 - 1) ∂(normal 1) = 3
    have e : (fun v : Vec 1 => (v 0 + v 0 ^ 2 - 1) * (v 0 + v 0 ^ 2 - 1))
        = fun v => v 0 ^ 4 + 2 * v 0 ^ 3 - (v 0 ^ 2 + 2 * v 0 ^ 1 - 1) := by
      funext v
      ring
    rw [e, integral_sub (by fun_prop) (by fun_prop), integral_add (by fun_prop) (by fun_prop), integral_const_mul,
      integral_sub (by fun_prop) (by fun_prop), integral_add (by fun_prop) (by fun_prop), integral_const_mul, m1, m2, m3, m4]
    norm_num

theorem inv_scalar (a : ℝ) (ha : a ≠ 0) : (scalM a)⁻¹ = scalM a⁻¹ := by
  apply inv_eq_right_inv
  ext i j
  have : i = j := Subsingleton.elim _ _
  subst this
  simp [Matrix.mul_apply, ha]

/-- **C110 (Gauss-Hermite on `x + x²`).** From `x̂ = 0`, `P = 1`, `R = 1` the correction reports variance 3/4. -/
theorem C110_gh_bend (iter : Bool) (y : Vec 1) :
    (ringSpkf "gh" iter).correct zeroEst ⟨1, y, some 0, bendMeas⟩ none (some false)
      = .ok { state := ⟨fun _ => (y 0 - 1) / 4, some 0⟩, cov := scalM (3 / 4) } := by
  have hP : zeroEst.cov.PosDef := PosDef.one
  have h := C110_correct (ringSpkf "gh" iter) (fun _ _ => rfl) (by simp [ringSpkf]) one_ne_zero zeroEst hP 0 rfl bendMeas
    PosDef.one bend (by intro δ; simp [zeroEst, bendMeas]; rfl) 2 bend_poly (by norm_num)
    (by simp [ringSpkf, ruleDegree]) y
  have e1 : zeroEst.cov = 1 := rfl
  rw [e1, bend_moments.1, bend_moments.2.1, bend_moments.2.2] at h
  have e2 : scalM 3 + bendMeas.covariance zeroEst.state = scalM 4 := by
    ext i j
    have : i = j := Subsingleton.elim _ _
    subst this
    simp [bendMeas]
    norm_num
  rw [e2, inv_scalar 4 (by norm_num)] at h
  rw [h]
  congr 2
  · congr 1
    funext i
    have : i = 0 := Subsingleton.elim _ _
    subst this
    simp [zeroEst, Matrix.mul_apply, mulVec, dotProduct]
    ring
  · ext i j
    have : i = j := Subsingleton.elim _ _
    subst this
    simp [Matrix.mul_apply]
    norm_num

/-- **C110 (false for cubature).** On the quadratic measurement `x + x²` the cubature filter reports variance 1/2, while
the mean square error of the estimate it returns is 1 in every situation of the kind it is meant for. -/
theorem C110_cubature_overconfident (iter : Bool) {Ω : Type} [MeasurableSpace Ω] {μ : Measure Ω} [IsProbabilityMeasure μ]
    (δ ν : Ω → Vec 1) (sc : PolyScene μ (1 : Mat 1 1) 1 bend δ ν) :
    ∃ est : Ω → Vec 1,
      (∀ ω, (ringSpkf "cubature" iter).correct zeroEst ⟨1, bend (δ ω) + ν ω, some 0, bendMeas⟩ none (some false)
        = .ok { state := ⟨est ω, some 0⟩, cov := scalM (1 / 2) }) ∧
      rvCross μ (fun ω => δ ω - est ω) (fun ω => δ ω - est ω) = scalM 1 := by
  have hP : zeroEst.cov.PosDef := PosDef.one
  obtain ⟨L, σ, hLL, hσ, ym, Pyy, Pxy, hym, hPyy, hPxy, _, hc⟩ := spkf_correct_flat (ringSpkf "cubature" iter)
    (fun _ _ => rfl) (by simp [ringSpkf]) one_ne_zero zeroEst hP 0 rfl bendMeas PosDef.one bend
    (by intro δ; simp [zeroEst, bendMeas]; rfl)
  have hex := generate_exact hσ
  have e1 : zeroEst.cov = 1 := rfl
  have hσ' : σ = cubaturePoints 1 := by
    unfold generateSigmapoints at hσ
    rw [if_neg (by simp [ringSpkf]), if_pos (show (ringSpkf "cubature" iter).method = "cubature" from rfl),
      if_neg (by norm_num)] at hσ
    exact (Except.ok.inj hσ).symm
  have hy1 : ym = fun _ => 1 := by
    rw [hym, gquad_mean hex hLL fun i => (bend_poly i).mono (by simp [ringSpkf, ruleDegree]), e1]
    exact bend_moments.1
  have hp : PolyMap 2 (fun v => bend v - ym) := fun i => (bend_poly i).sub (PolyFn.const 2 (ym i))
  have hx1 : Pxy = scalM 1 := by
    rw [hPxy, gquad_cross hex hLL (a := fun v => v) (fun i => PolyFn.coord i) hp (by simp [ringSpkf, ruleDegree]), e1, hy1,
      ← bend_moments.2.1]
    unfold crossOf
    rw [bend_moments.1]
  have hl : L 0 0 * L 0 0 = 1 := by
    have := congrFun (congrFun hLL 0) 0
    simpa [Matrix.mul_apply, e1] using this
  have hyy : Pyy = scalM 2 := by
    rw [hPyy, hy1, hσ']
    ext i j
    have hi : i = 0 := Subsingleton.elim _ _
    have hj : j = 0 := Subsingleton.elim _ _
    subst hi hj
    simp [cubaturePoints, wsum, vecMulVec, bend, mulVec, dotProduct, unitVec, bendMeas, List.finRange_succ]
    rcases mul_self_eq_one_iff.1 hl with h | h <;> rw [h] <;> norm_num
  refine ⟨fun ω => scalM (1 / 2) *ᵥ (bend (δ ω) + ν ω - fun _ => 1), fun ω => ?_, ?_⟩
  · rw [hc, hx1, hy1, hyy, inv_scalar 2 (by norm_num)]
    congr 2
    · congr 1
      funext i
      simp [zeroEst, Matrix.mul_apply, mulVec, dotProduct]
    · ext i j
      have : i = j := Subsingleton.elim _ _
      subst this
      simp [e1, Matrix.mul_apply]
      norm_num
  · obtain ⟨sδ, sz, mδ, cδ, mz, cδz, czz⟩ := scene_innovation PosDef.one bend_poly sc
    rw [bend_moments.1] at sz mz cδz czz
    show rvCross μ (fun ω => δ ω - scalM (1 / 2) *ᵥ (bend (δ ω) + ν ω - fun _ => 1))
      (fun ω => δ ω - scalM (1 / 2) *ᵥ (bend (δ ω) + ν ω - fun _ => 1)) = scalM 1
    rw [affine_error sδ sz cδ cδz czz, bend_moments.2.1, bend_moments.2.2]
    ext i j
    have : i = j := Subsingleton.elim _ _
    subst this
    simp [Matrix.mul_apply]
    norm_num

/-- Non-vacuity of `C110_honest` and `C110_cubature_overconfident`. -/
example : PolyScene ((normal (1 : Mat 1 1)).prod (normal (1 : Mat 1 1))) 1 1 bend (fun ω => ω.1) (fun ω => ω.2) :=
  polyScene_exists PosDef.one PosDef.one bend_poly

end Verif
