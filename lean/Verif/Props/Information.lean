import Verif.Props.Ekf
import Verif.Model.Sigma
import Verif.Lemmas.Sigma

/-!
C134: information adds up. What a Kalman filter knows after several linear measurements at one time.
-/

set_option linter.unusedSectionVars false
set_option linter.unusedVariables false
set_option linter.unusedSimpArgs false

namespace Verif

open Matrix

variable {U : Type} {n : ℕ}

/-! ### Specification -/

/-- A linear measurement: matrix, noise covariance and value. -/
structure LinSpec (n : ℕ) where
  m : ℕ
  C : Mat m n
  R : Mat m m
  y : Vec m

/-- Correcting with one measurement after the other, all taken at the time `t`. -/
noncomputable def fuseEach (proc : ProcModel (Vec n) U n) (rej : Bool) (chi : ℕ → ℝ) (t : ℝ) (l : List (LinSpec n)) (x : SWC (Vec n) n) :
    Except Err (SWC (Vec n) n) :=
  l.foldlM (fun x s => (vecEnv proc rej chi).correct x (linMeas s.C s.R s.y (some t)) none none (some false)) x

/-- The information matrix of the measurements. -/
noncomputable def infoMat (l : List (LinSpec n)) : Mat n n := (l.map fun s => s.Cᵀ * s.R⁻¹ * s.C).sum

/-- The information vector of the measurements. -/
noncomputable def infoVec (l : List (LinSpec n)) : Vec n := (l.map fun s => s.Cᵀ *ᵥ (s.R⁻¹ *ᵥ s.y)).sum

/-- The rows of `A` above those of `B`. -/
def appendRows {p q : ℕ} (A : Mat p n) (B : Mat q n) : Mat (p + q) n := Matrix.of fun i j => Fin.append (fun i => A i j) (fun i => B i j) i

/-- Two measurements as one, with independent noises. -/
def stack2 (s s' : LinSpec n) : LinSpec n where
  m := s.m + s'.m
  C := appendRows s.C s'.C
  R := blockDiag2 s.R s'.R
  y := Fin.append s.y s'.y

/-- All measurements of a list as one. -/
def stackAll (l : List (LinSpec n)) : LinSpec n := l.foldr stack2 ⟨0, fun i => i.elim0, 1, fun i => i.elim0⟩

/-! ### One after the other -/

theorem infoMat_cons (s : LinSpec n) (l : List (LinSpec n)) : infoMat (s :: l) = s.Cᵀ * s.R⁻¹ * s.C + infoMat l := by
  simp [infoMat]

theorem infoVec_cons (s : LinSpec n) (l : List (LinSpec n)) : infoVec (s :: l) = s.Cᵀ *ᵥ (s.R⁻¹ *ᵥ s.y) + infoVec l := by
  simp [infoVec]

theorem infoMat_psd : ∀ l : List (LinSpec n), (∀ s ∈ l, s.R.PosDef) → (infoMat l).PosSemidef
  | [], _ => by simp [infoMat, PosSemidef.zero]
  | s :: l, h => by
    rw [infoMat_cons]
    exact (psd_congr (h s (by simp)).inv.posSemidef s.C).add (infoMat_psd l fun s' hs' => h s' (by simp [hs']))

/-- C134: correcting with linear measurements one after the other succeeds. With the prior covariance `P` and the information matrix `I` of
the measurements, the covariance becomes `P (1 + I P)⁻¹`, and the estimate moves by that times the information of the residuals. -/
theorem C134_sum (proc : ProcModel (Vec n) U n) (rej : Bool) (chi : ℕ → ℝ) (t : ℝ) : ∀ (l : List (LinSpec n)) (x : SWC (Vec n) n),
    (∀ s ∈ l, s.R.PosDef) → x.cov.PosSemidef → x.state.stamp = some t →
    ∃ x', fuseEach proc rej chi t l x = .ok x' ∧ x'.state.stamp = some t ∧ x'.cov.PosSemidef ∧ (1 + infoMat l * x.cov).det ≠ 0 ∧
      x'.cov = x.cov * (1 + infoMat l * x.cov)⁻¹ ∧
      x'.state.value = x.state.value + x'.cov *ᵥ (infoVec l - infoMat l *ᵥ x.state.value)
  | [], x, _, hP, ht => by
    refine ⟨x, rfl, ht, hP, ?_, ?_, ?_⟩
    · simp [infoMat]
    · simp [infoMat]
    · simp [infoMat, infoVec]
  | s :: l, x, hR, hP, ht => by
    have hRs := hR s (by simp)
    set x1 : SWC (Vec n) n := { state := { value := x.state.value + kGain x.cov s.C s.R *ᵥ (s.y - s.C *ᵥ x.state.value), stamp := some t }
                                cov := kCov x.cov s.C s.R } with hx1
    have hc : (vecEnv proc rej chi).correct x (linMeas s.C s.R s.y (some t)) none none (some false) = .ok x1 :=
      correct_linear proc rej chi s.C s.R hRs s.y t x hP ht
    have hS := pd_det (innov_pd hP s.C hRs)
    have hd := pd_det hRs
    obtain ⟨x', h1, h2, h3, h4, h5, h6⟩ := C134_sum proc rej chi t l x1 (fun s' hs' => hR s' (by simp [hs'])) (kCov_psd hP s.C hRs) rfl
    have p1 : x1.cov * (1 + s.Cᵀ * s.R⁻¹ * s.C * x.cov) = x.cov := kCov_push x.cov s.C s.R hS hd
    have d1 := info_det x.cov s.C s.R hS hd
    have p2 : x'.cov * (1 + infoMat l * x1.cov) = x1.cov := by
      rw [h5, Matrix.mul_assoc, nonsing_inv_mul _ (unit_of_det h4), Matrix.mul_one]
    have e : (1 + infoMat l * x1.cov) * (1 + s.Cᵀ * s.R⁻¹ * s.C * x.cov) = 1 + infoMat (s :: l) * x.cov := by
      rw [Matrix.add_mul 1, Matrix.one_mul, Matrix.mul_assoc (infoMat l), p1, infoMat_cons, Matrix.add_mul]
      abel
    have hdet : (1 + infoMat (s :: l) * x.cov).det ≠ 0 := by
      rw [← e, det_mul]
      exact mul_ne_zero h4 d1
    have p3 : x'.cov * (1 + infoMat (s :: l) * x.cov) = x.cov := by
      rw [← e, ← Matrix.mul_assoc, p2, p1]
    refine ⟨x', ?_, h2, h3, hdet, ?_, ?_⟩
    · show (((vecEnv proc rej chi).correct x (linMeas s.C s.R s.y (some t)) none none (some false)) >>= fun x1 => fuseEach proc rej chi t l x1) = _
      rw [hc]
      exact h1
    · have := congrArg (· * (1 + infoMat (s :: l) * x.cov)⁻¹) p3
      simp only [Matrix.mul_assoc] at this
      rwa [mul_nonsing_inv _ (unit_of_det hdet), Matrix.mul_one] at this
    · set v1 := s.Cᵀ *ᵥ (s.R⁻¹ *ᵥ s.y) - (s.Cᵀ * s.R⁻¹ * s.C) *ᵥ x.state.value with hv1
      have g1 : x1.state.value = x.state.value + x1.cov *ᵥ v1 := by
        show x.state.value + kGain x.cov s.C s.R *ᵥ (s.y - s.C *ᵥ x.state.value) = _
        rw [← kCov_gain x.cov s.C s.R hS hd, hv1, mulVec_sub, mulVec_sub]
        simp only [hx1, mulVec_mulVec, Matrix.mul_assoc]
      have g2 : x1.cov *ᵥ v1 = x'.cov *ᵥ v1 + x'.cov *ᵥ (infoMat l *ᵥ (x1.cov *ᵥ v1)) := by
        rw [mulVec_mulVec, mulVec_mulVec, ← add_mulVec]
        congr 1
        rw [Matrix.mul_add, Matrix.mul_one] at p2
        rw [Matrix.mul_assoc]
        exact p2.symm
      have g3 : s.Cᵀ *ᵥ (s.R⁻¹ *ᵥ s.y) = v1 + (s.Cᵀ * s.R⁻¹ * s.C) *ᵥ x.state.value := by rw [hv1]; abel
      rw [h6, g1, infoVec_cons, infoMat_cons, g3]
      simp only [mulVec_sub, mulVec_add, add_mulVec]
      nth_rewrite 1 [g2]
      abel

/-! ### Consequences -/

/-- Two lists with the same information have the same effect. -/
theorem fuseEach_congr (proc : ProcModel (Vec n) U n) (rej : Bool) (chi : ℕ → ℝ) (t : ℝ) (l l' : List (LinSpec n)) (x : SWC (Vec n) n)
    (h : ∀ s ∈ l, s.R.PosDef) (h' : ∀ s ∈ l', s.R.PosDef) (hP : x.cov.PosSemidef) (ht : x.state.stamp = some t)
    (hI : infoMat l = infoMat l') (hv : infoVec l = infoVec l') : fuseEach proc rej chi t l x = fuseEach proc rej chi t l' x := by
  obtain ⟨a, a1, a2, -, -, a5, a6⟩ := C134_sum proc rej chi t l x h hP ht
  obtain ⟨b, b1, b2, -, -, b5, b6⟩ := C134_sum proc rej chi t l' x h' hP ht
  have hc : a.cov = b.cov := by rw [a5, b5, hI]
  rw [a1, b1]
  congr 1
  obtain ⟨⟨av, as⟩, ac⟩ := a
  obtain ⟨⟨bv, bs⟩, bc⟩ := b
  simp only at a2 a6 b2 b6 hc
  rw [a2, b2, a6, b6, hc, hI, hv]

/-- C134: with a positive definite prior covariance, information adds up: the inverse of the covariance increases by the information matrix
of each measurement, and the inverse of the covariance times the estimate by the information vector of each. -/
theorem C134_information (proc : ProcModel (Vec n) U n) (rej : Bool) (chi : ℕ → ℝ) (t : ℝ) (l : List (LinSpec n)) (x : SWC (Vec n) n)
    (h : ∀ s ∈ l, s.R.PosDef) (hP : x.cov.PosDef) (ht : x.state.stamp = some t) :
    ∃ x', fuseEach proc rej chi t l x = .ok x' ∧ x'.state.stamp = some t ∧ x'.cov.PosDef ∧ x'.cov⁻¹ = x.cov⁻¹ + infoMat l ∧
      x'.cov⁻¹ *ᵥ x'.state.value = x.cov⁻¹ *ᵥ x.state.value + infoVec l := by
  obtain ⟨x', h1, h2, h3, h4, h5, h6⟩ := C134_sum proc rej chi t l x h hP.posSemidef ht
  have hPu := unit_of_det (pd_det hP)
  have hinv : x'.cov⁻¹ = x.cov⁻¹ + infoMat l := by
    rw [h5, Matrix.mul_inv_rev, nonsing_inv_nonsing_inv _ (unit_of_det h4), Matrix.add_mul, Matrix.one_mul, Matrix.mul_assoc,
      mul_nonsing_inv _ hPu, Matrix.mul_one]
  have hpd : x'.cov⁻¹.PosDef := by rw [hinv]; exact pd_add_psd hP.inv (infoMat_psd l h)
  have hdet : x'.cov.det ≠ 0 := by
    have := pd_det hpd
    intro h0
    rw [det_nonsing_inv, h0, Ring.inverse_zero] at this
    exact this rfl
  have hpd' : x'.cov.PosDef := by
    have := hpd.inv
    rwa [nonsing_inv_nonsing_inv _ (unit_of_det hdet)] at this
  refine ⟨x', h1, h2, hpd', hinv, ?_⟩
  rw [h6, mulVec_add, mulVec_mulVec _ x'.cov⁻¹, nonsing_inv_mul _ (unit_of_det hdet), one_mulVec, hinv, add_mulVec]
  abel

/-- C134: the order of the measurements does not matter. -/
theorem C134_order (proc : ProcModel (Vec n) U n) (rej : Bool) (chi : ℕ → ℝ) (t : ℝ) (l l' : List (LinSpec n)) (hl : l.Perm l')
    (x : SWC (Vec n) n) (h : ∀ s ∈ l, s.R.PosDef) (hP : x.cov.PosSemidef) (ht : x.state.stamp = some t) :
    fuseEach proc rej chi t l x = fuseEach proc rej chi t l' x :=
  fuseEach_congr proc rej chi t l l' x h (fun s hs => h s (hl.mem_iff.2 hs)) hP ht (hl.map _).sum_eq (hl.map _).sum_eq

theorem append_gram {p q : ℕ} (A : Mat p n) (B : Mat q n) (R : Mat p p) (S : Mat q q) :
    (appendRows A B)ᵀ * blockDiag2 R S = (appendRows (Aᵀ * R)ᵀ (Bᵀ * S)ᵀ)ᵀ := by
  ext i j
  rw [Matrix.mul_apply, Fin.sum_univ_add]
  refine Fin.addCases (fun j => ?_) (fun j => ?_) j <;>
    simp [blockDiag2, appendRows, Fin.append_left, Fin.append_right, Matrix.mul_apply]

theorem append_mul {p q : ℕ} (A : Mat p n) (B : Mat q n) (C : Mat p n) (D : Mat q n) :
    (appendRows A B)ᵀ * appendRows C D = Aᵀ * C + Bᵀ * D := by
  ext i j
  rw [Matrix.mul_apply, Fin.sum_univ_add]
  simp [appendRows, Fin.append_left, Fin.append_right, Matrix.mul_apply]

theorem append_mulVec {p q : ℕ} (A : Mat p n) (B : Mat q n) (v : Vec p) (w : Vec q) :
    (appendRows A B)ᵀ *ᵥ (Fin.append v w) = Aᵀ *ᵥ v + Bᵀ *ᵥ w := by
  funext i
  simp [appendRows, mulVec, dotProduct, Fin.sum_univ_add, Fin.append_left, Fin.append_right]

theorem blockDiag2_inv {p q : ℕ} {R : Mat p p} {S : Mat q q} (hR : R.det ≠ 0) (hS : S.det ≠ 0) :
    (blockDiag2 R S)⁻¹ = blockDiag2 R⁻¹ S⁻¹ := by
  refine inv_eq_right_inv ?_
  unfold blockDiag2
  rw [submatrix_mul_equiv, fromBlocks_multiply]
  simp only [Matrix.mul_zero, Matrix.zero_mul, add_zero, zero_add, mul_nonsing_inv _ (unit_of_det hR), mul_nonsing_inv _ (unit_of_det hS),
    fromBlocks_one, submatrix_one_equiv]

theorem stack_info (s s' : LinSpec n) (h : s.R.PosDef) (h' : s'.R.PosDef) :
    (stack2 s s').Cᵀ * (stack2 s s').R⁻¹ * (stack2 s s').C = s.Cᵀ * s.R⁻¹ * s.C + s'.Cᵀ * s'.R⁻¹ * s'.C ∧
    (stack2 s s').Cᵀ *ᵥ ((stack2 s s').R⁻¹ *ᵥ (stack2 s s').y) = s.Cᵀ *ᵥ (s.R⁻¹ *ᵥ s.y) + s'.Cᵀ *ᵥ (s'.R⁻¹ *ᵥ s'.y) := by
  have e : (stack2 s s').Cᵀ * (stack2 s s').R⁻¹ = (appendRows (s.Cᵀ * s.R⁻¹)ᵀ (s'.Cᵀ * s'.R⁻¹)ᵀ)ᵀ := by
    show (appendRows s.C s'.C)ᵀ * (blockDiag2 s.R s'.R)⁻¹ = _
    rw [blockDiag2_inv (pd_det h) (pd_det h')]
    exact append_gram _ _ _ _
  constructor
  · rw [e]
    refine (append_mul _ _ s.C s'.C).trans ?_
    rw [transpose_transpose, transpose_transpose]
  · rw [mulVec_mulVec, e]
    refine (append_mulVec _ _ s.y s'.y).trans ?_
    rw [mulVec_mulVec, mulVec_mulVec, transpose_transpose, transpose_transpose]

theorem noRows_info (C : Mat 0 n) (R : Mat 0 0) (y : Vec 0) : Cᵀ * R⁻¹ * C = 0 ∧ Cᵀ *ᵥ (R⁻¹ *ᵥ y) = 0 := by
  refine ⟨?_, ?_⟩
  · ext i j
    rw [Matrix.mul_apply, Fin.sum_univ_zero, Matrix.zero_apply]
  · ext i
    simp [mulVec, dotProduct]

theorem stackAll_info : ∀ l : List (LinSpec n), (∀ s ∈ l, s.R.PosDef) → (stackAll l).R.PosDef ∧
    infoMat [stackAll l] = infoMat l ∧ infoVec [stackAll l] = infoVec l
  | [], _ => by
    refine ⟨PosDef.one, ?_, ?_⟩
    · rw [infoMat_cons, show (stackAll ([] : List (LinSpec n))).Cᵀ * (stackAll ([] : List (LinSpec n))).R⁻¹ * (stackAll ([] : List (LinSpec n))).C = 0
        from (noRows_info _ _ (fun i => i.elim0)).1, zero_add]
    · rw [infoVec_cons, show (stackAll ([] : List (LinSpec n))).Cᵀ *ᵥ ((stackAll ([] : List (LinSpec n))).R⁻¹ *ᵥ (stackAll ([] : List (LinSpec n))).y) = 0
        from (noRows_info _ _ _).2, zero_add]
  | s :: l, h => by
    obtain ⟨h1, h2, h3⟩ := stackAll_info l fun s' hs' => h s' (by simp [hs'])
    have hs := h s (by simp)
    obtain ⟨e1, e2⟩ := stack_info s (stackAll l) hs h1
    have m0 : infoMat ([] : List (LinSpec n)) = 0 := by simp [infoMat]
    have v0 : infoVec ([] : List (LinSpec n)) = 0 := by simp [infoVec]
    rw [infoMat_cons (stackAll l) [], m0, add_zero] at h2
    rw [infoVec_cons (stackAll l) [], v0, add_zero] at h3
    refine ⟨blockDiag2_pd hs h1, ?_, ?_⟩
    · rw [infoMat_cons (stackAll (s :: l)) [], m0, add_zero, infoMat_cons s l, ← h2]
      exact e1
    · rw [infoVec_cons (stackAll (s :: l)) [], v0, add_zero, infoVec_cons s l, ← h3]
      exact e2

/-- C134: nor does it matter whether they are given one by one or as a single stacked measurement with independent noises. -/
theorem C134_stacked (proc : ProcModel (Vec n) U n) (rej : Bool) (chi : ℕ → ℝ) (t : ℝ) (l : List (LinSpec n)) (x : SWC (Vec n) n)
    (h : ∀ s ∈ l, s.R.PosDef) (hP : x.cov.PosSemidef) (ht : x.state.stamp = some t) :
    (vecEnv proc rej chi).correct x (linMeas (stackAll l).C (stackAll l).R (stackAll l).y (some t)) none none (some false)
      = fuseEach proc rej chi t l x := by
  obtain ⟨h1, h2, h3⟩ := stackAll_info l h
  have := fuseEach_congr proc rej chi t [stackAll l] l x (by simpa using h1) h hP ht h2 h3
  rw [← this]
  show _ = (((vecEnv proc rej chi).correct x (linMeas (stackAll l).C (stackAll l).R (stackAll l).y (some t)) none none (some false)) >>= fun x1 => Except.ok x1)
  cases (vecEnv proc rej chi).correct x (linMeas (stackAll l).C (stackAll l).R (stackAll l).y (some t)) none none (some false) <;> rfl

/-- C134: repeating a measurement `k` times has the effect of one measurement of the mean value with `1/k` of the noise covariance. -/
theorem C134_repeated (proc : ProcModel (Vec n) U n) (rej : Bool) (chi : ℕ → ℝ) (t : ℝ) {m : ℕ} (C : Mat m n) (R : Mat m m) (hR : R.PosDef)
    (ys : List (Vec m)) (hne : ys ≠ []) (x : SWC (Vec n) n) (hP : x.cov.PosSemidef) (ht : x.state.stamp = some t) :
    fuseEach proc rej chi t (ys.map fun y => ⟨m, C, R, y⟩) x
      = (vecEnv proc rej chi).correct x (linMeas C ((1 / (ys.length : ℝ)) • R) ((1 / (ys.length : ℝ)) • ys.sum) (some t)) none none (some false) := by
  set k : ℝ := (ys.length : ℝ) with hk
  have hkp : 0 < k := by
    rw [hk]
    exact_mod_cast List.length_pos_iff.2 hne
  have hRk : ((1 / k) • R).PosDef := hR.smul (by positivity)
  have hinv : ((1 / k) • R)⁻¹ = k • R⁻¹ := by
    refine inv_eq_right_inv ?_
    rw [Matrix.smul_mul, Matrix.mul_smul, smul_smul, mul_nonsing_inv _ (unit_of_det (pd_det hR))]
    rw [one_div_mul_cancel hkp.ne', one_smul]
  have hsum : ∀ l : List (Vec m), infoMat (l.map fun y => (⟨m, C, R, y⟩ : LinSpec n)) = (l.length : ℝ) • (Cᵀ * R⁻¹ * C) ∧
      infoVec (l.map fun y => (⟨m, C, R, y⟩ : LinSpec n)) = Cᵀ *ᵥ (R⁻¹ *ᵥ l.sum) := by
    intro l
    induction l with
    | nil => simp [infoMat, infoVec]
    | cons y l ih =>
      rw [List.map_cons, infoMat_cons, infoVec_cons, ih.1, ih.2]
      refine ⟨?_, ?_⟩
      · rw [List.length_cons]
        push_cast
        rw [add_smul, one_smul, add_comm]
      · rw [List.sum_cons, mulVec_add, mulVec_add]
  have hone : infoMat [(⟨m, C, (1 / k) • R, (1 / k) • ys.sum⟩ : LinSpec n)] = k • (Cᵀ * R⁻¹ * C) ∧
      infoVec [(⟨m, C, (1 / k) • R, (1 / k) • ys.sum⟩ : LinSpec n)] = Cᵀ *ᵥ (R⁻¹ *ᵥ ys.sum) := by
    constructor
    · simp only [infoMat, List.map_cons, List.map_nil, List.sum_cons, List.sum_nil, add_zero, hinv, Matrix.mul_smul, Matrix.smul_mul]
    · simp only [infoVec, List.map_cons, List.map_nil, List.sum_cons, List.sum_nil, add_zero, hinv, smul_mulVec, mulVec_smul, smul_smul]
      rw [one_div_mul_cancel hkp.ne', one_smul]
  rw [fuseEach_congr proc rej chi t _ [⟨m, C, (1 / k) • R, (1 / k) • ys.sum⟩] x (by simpa using fun y _ => hR) (by simpa using hRk) hP ht
    ((hsum ys).1.trans hone.1.symm) ((hsum ys).2.trans hone.2.symm)]
  show (((vecEnv proc rej chi).correct x (linMeas C ((1 / k) • R) ((1 / k) • ys.sum) (some t)) none none (some false)) >>= fun x1 => Except.ok x1) = _
  cases (vecEnv proc rej chi).correct x (linMeas C ((1 / k) • R) ((1 / k) • ys.sum) (some t)) none none (some false) <;> rfl

/-- C134: if the measurements determine the state on their own, the covariance afterwards is at most the inverse of their information
matrix, however uncertain the prior is. -/
theorem C134_bound (proc : ProcModel (Vec n) U n) (rej : Bool) (chi : ℕ → ℝ) (t : ℝ) (l : List (LinSpec n)) (x x' : SWC (Vec n) n)
    (h : ∀ s ∈ l, s.R.PosDef) (hP : x.cov.PosSemidef) (ht : x.state.stamp = some t) (hI : (infoMat l).PosDef)
    (hx : fuseEach proc rej chi t l x = .ok x') : ((infoMat l)⁻¹ - x'.cov).PosSemidef := by
  obtain ⟨x'', h1, -, -, h4, h5, -⟩ := C134_sum proc rej chi t l x h hP ht
  have : x'' = x' := Except.ok.inj (h1.symm.trans hx)
  subst this
  set W := (infoMat l)⁻¹ with hW
  set P := x.cov with hPd
  have hWpd : W.PosDef := hI.inv
  have hSpd : (P + W).PosDef := by rw [add_comm]; exact pd_add_psd hWpd hP
  have hSu := unit_of_det (pd_det hSpd)
  have hWI : W * infoMat l = 1 := nonsing_inv_mul _ (unit_of_det (pd_det hI))
  have hIW : infoMat l * W = 1 := mul_nonsing_inv _ (unit_of_det (pd_det hI))
  have e1 : 1 + infoMat l * P = infoMat l * (P + W) := by rw [Matrix.mul_add, hIW, add_comm]
  have e2 : x''.cov = P * ((P + W)⁻¹ * W) := by
    rw [h5, e1, Matrix.mul_inv_rev]
  have e3 : W - x''.cov = W * (P + W)⁻¹ * W := by
    have : P * ((P + W)⁻¹ * W) = (P + W) * ((P + W)⁻¹ * W) - W * ((P + W)⁻¹ * W) := by rw [Matrix.add_mul]; abel
    rw [e2, this, ← Matrix.mul_assoc (P + W), mul_nonsing_inv _ hSu, Matrix.one_mul, Matrix.mul_assoc]
    abel
  rw [e3]
  have := psd_congr hSpd.inv.posSemidef W
  rwa [psd_symm hWpd.posSemidef] at this

/-! ### Examples -/

/-- Each coordinate of a point in the plane measured on its own: together they determine the point. -/
noncomputable def coords2 : List (LinSpec 2) :=
  [⟨1, !![1, 0], 1, fun _ => 3⟩, ⟨1, !![0, 1], 1, fun _ => 5⟩]

theorem coords2_pd : ∀ s ∈ coords2, s.R.PosDef := by
  intro s hs
  simp only [coords2, List.mem_cons, List.not_mem_nil, or_false] at hs
  rcases hs with rfl | rfl <;> exact PosDef.one

theorem coords2_info : infoMat coords2 = 1 := by
  simp only [infoMat, coords2, List.map_cons, List.map_nil, List.sum_cons, List.sum_nil, add_zero]
  have h : ((1 : Mat 1 1)⁻¹) = 1 := inv_one
  rw [h]
  ext i j
  fin_cases i <;> fin_cases j <;> simp [Matrix.mul_apply]

example (proc : ProcModel (Vec 2) U 2) : ∃ x', fuseEach proc false (fun _ => 6) 1 coords2 ⟨⟨0, some 1⟩, 1⟩ = .ok x' ∧
    x'.cov⁻¹ = (2 : ℝ) • (1 : Mat 2 2) ∧ ((1 : Mat 2 2) - x'.cov).PosSemidef := by
  obtain ⟨x', h1, -, -, h4, -⟩ := C134_information proc false (fun _ => 6) 1 coords2 ⟨⟨0, some 1⟩, 1⟩ coords2_pd PosDef.one rfl
  refine ⟨x', h1, ?_, ?_⟩
  · rw [h4, coords2_info, inv_one, two_smul]
  · have := C134_bound proc false (fun _ => 6) 1 coords2 ⟨⟨0, some 1⟩, 1⟩ x' coords2_pd PosSemidef.one rfl (by rw [coords2_info]; exact PosDef.one) h1
    rwa [coords2_info, inv_one] at this

/-- A singular prior covariance is allowed: the second coordinate is known exactly. -/
example (proc : ProcModel (Vec 2) U 2) : ∃ x', fuseEach proc false (fun _ => 6) 1 coords2.reverse ⟨⟨0, some 1⟩, diagonal ![1, 0]⟩ = .ok x' ∧
    fuseEach proc false (fun _ => 6) 1 coords2 ⟨⟨0, some 1⟩, diagonal ![1, 0]⟩ = .ok x' := by
  have hp : (diagonal ![1, 0] : Mat 2 2).PosSemidef := PosSemidef.diagonal (by intro i; fin_cases i <;> simp)
  obtain ⟨x', h1, -⟩ := C134_sum proc false (fun _ => 6) 1 coords2 ⟨⟨0, some 1⟩, diagonal ![1, 0]⟩ coords2_pd hp rfl
  refine ⟨x', ?_, h1⟩
  rw [← h1]
  exact (C134_order proc false (fun _ => 6) 1 coords2 coords2.reverse coords2.reverse_perm.symm _ coords2_pd hp rfl).symm

end Verif
