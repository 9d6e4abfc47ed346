import Verif.Props.Equivariance
import Verif.Props.Ekf
import Verif.Lemmas.Iekf
import Verif.Props.Composite
import Verif.Model.CompositeFilter

/-!
C95: an EKF of a composite state whose parts are independent is the collection of the EKFs of its parts.
-/

set_option linter.unusedSectionVars false
set_option linter.unusedVariables false

namespace Verif

open Matrix

variable {V V' U U' : Type} {n n' : ℕ}

/-- The part of the perturbation selected by `M` is not correlated with the rest. -/
def Uncorrelated (M : Mat n' n) (P : Mat n n) : Prop := M * P * (1 - Mᵀ * M) = 0

/-- `c` describes a part of the state of the system of `e` (by the filter `e'`), and the dynamics of the rest do not involve this part,
nor do the noises of the two correlate. -/
structure Part (c : Change V V' U U' n n') (e : EkfEnv V U n) (e' : EkfEnv V' U' n') : Prop where
  same : SameSystem c e e'
  select : c.tan * c.tanᵀ = 1
  jacobian : ∀ x u dt, (1 - c.tanᵀ * c.tan) * e.proc.jacobian x u dt * c.tanᵀ = 0
  covariance : ∀ x u dt, 0 ≤ dt → (e.proc.covariance x u dt).PosSemidef ∧ Uncorrelated c.tan (e.proc.covariance x u dt)
  plus_zero : ∀ v', e'.plus v' 0 = v'

/-- A measurement of the rest: it does not depend on the part. -/
def Foreign (c : Change V V' U U' n n') (y : StMeas V n) (y' : StMeas V' n') : Prop :=
  y'.stamp = y.stamp + c.shift ∧ (∀ x, y.meas.model.jacobian x * c.tanᵀ = 0) ∧ ∀ x', y'.meas.model.evaluate x' = none

variable {c : Change V V' U U' n n'} {e : EkfEnv V U n} {e' : EkfEnv V' U' n'}

theorem Uncorrelated.split {M : Mat n' n} {P : Mat n n} (h : Uncorrelated M P) : M * P = M * P * Mᵀ * M := by
  unfold Uncorrelated at h
  rw [Matrix.mul_sub, Matrix.mul_one, sub_eq_zero] at h
  rw [Matrix.mul_assoc (M * P), ← h]

theorem part_predict (h : Part c e e') {x : SWC V n} (hP : x.cov.PosSemidef) (hu : Uncorrelated c.tan x.cov) {u : Inp U} {dt : ℝ}
    {z : SWC V n} (hz : e.predict x (some u) (some dt) none = .ok z) : z.cov.PosSemidef ∧ Uncorrelated c.tan z.cov := by
  have hpsd := predict_psd e (fun x u dt hdt => (h.covariance x u dt hdt).1) x _ _ _ z hP hz
  refine ⟨hpsd, ?_⟩
  obtain ⟨t, hd, rfl⟩ : ∃ t, 0 ≤ dt ∧ e.propagate x u t dt x.state = z := by
    unfold EkfEnv.predict predictTime at hz
    cases hx : x.state.stamp with
    | some t =>
      simp only [hx, bind, Except.bind] at hz
      by_cases hd : dt < 0
      · simp only [if_pos hd] at hz; cases hz
      · simp only [if_neg hd] at hz
        exact ⟨t, not_lt.mp hd, Except.ok.inj hz⟩
    | none =>
      cases hus : u.stamp with
      | none => simp only [hx, hus, bind, Except.bind] at hz; cases hz
      | some t =>
        simp only [hx, hus, bind, Except.bind] at hz
        by_cases hd : dt < 0
        · simp only [if_pos hd] at hz; cases hz
        · simp only [if_neg hd] at hz
          exact ⟨t, not_lt.mp hd, Except.ok.inj hz⟩
  unfold EkfEnv.propagate
  simp only []
  set A := e.proc.jacobian x.state u dt
  obtain ⟨hQ, hQu⟩ := h.covariance x.state u dt hd
  have hX : (A * x.cov * Aᵀ + e.proc.covariance x.state u dt).PosSemidef := psd_add (psd_conj hP A) hQ
  rw [symmetrize_eq (psd_symm hX)]
  have hJ := congrArg transpose (h.jacobian x.state u dt)
  rw [transpose_mul, transpose_mul, transpose_transpose, transpose_zero, transpose_sub, transpose_one, transpose_mul,
    transpose_transpose] at hJ
  have hA := h.same.jacobian x.state u dt
  unfold Uncorrelated at hQu ⊢
  rw [Matrix.mul_add, Matrix.add_mul, hQu, add_zero]
  calc c.tan * (A * x.cov * Aᵀ) * (1 - c.tanᵀ * c.tan)
      = (c.tan * A) * x.cov * Aᵀ * (1 - c.tanᵀ * c.tan) := by simp only [Matrix.mul_assoc]
    _ = e'.proc.jacobian (c.st x.state) (c.input u) dt * (c.tan * x.cov) * Aᵀ * (1 - c.tanᵀ * c.tan) := by
        rw [← hA]; simp only [Matrix.mul_assoc]
    _ = e'.proc.jacobian (c.st x.state) (c.input u) dt * (c.tan * x.cov * c.tanᵀ) * (c.tan * (Aᵀ * (1 - c.tanᵀ * c.tan))) := by
        rw [hu.split]; simp only [Matrix.mul_assoc]
        congr 2
        rw [← Matrix.mul_assoc c.tan c.tanᵀ, h.select, Matrix.one_mul]
    _ = 0 := by rw [hJ, Matrix.mul_zero]


theorem part_fuse_own (h : Part c e e') {x : SWC V n} (hP : x.cov.PosSemidef) (hu : Uncorrelated c.tan x.cov) {y : Meas V n}
    {m' : MeasModel V' n' y.m} (hm : SameModel c y.model m') (hR : ∀ s, (y.model.covariance s).PosSemidef) {rej : Bool}
    {z : SWC V n × Option CorrectDetails} (hz : e.fuse x y none rej = .ok z) : z.1.cov.PosSemidef ∧ Uncorrelated c.tan z.1.cov := by
  obtain ⟨z, d⟩ := z
  refine ⟨(fuse_psd e x y none rej hR hP z d hz).1, ?_⟩
  rcases fuse_cases e x y none rej z d hz with rfl | ⟨yc, -, hdet, rfl⟩
  · exact hu
  · have hX := kalman_psd hP (y.model.jacobian x.state) (hR x.state) hdet
    unfold kalmanUpdate
    unfold innovCov at hX ⊢
    simp only [Option.getD_none] at hX ⊢
    rw [symmetrize_eq (psd_symm hX)]
    have hG := hm.jacobian x.state
    unfold Uncorrelated at hu ⊢
    generalize x.cov * (y.model.jacobian x.state)ᵀ *
      (y.model.jacobian x.state * x.cov * (y.model.jacobian x.state)ᵀ + y.model.covariance x.state)⁻¹ = K
    calc c.tan * ((1 - K * y.model.jacobian x.state) * x.cov) * (1 - c.tanᵀ * c.tan)
        = c.tan * x.cov * (1 - c.tanᵀ * c.tan) - c.tan * K * y.model.jacobian x.state * x.cov * (1 - c.tanᵀ * c.tan) := by
          rw [Matrix.sub_mul 1 (K * y.model.jacobian x.state) x.cov, Matrix.one_mul, Matrix.mul_sub c.tan,
            Matrix.sub_mul (c.tan * x.cov)]
          simp only [Matrix.mul_assoc]
      _ = c.tan * x.cov * (1 - c.tanᵀ * c.tan)
          - c.tan * K * m'.jacobian (c.st x.state) * (c.tan * x.cov * (1 - c.tanᵀ * c.tan)) := by
          rw [← hG]; simp only [Matrix.mul_assoc]
      _ = 0 := by rw [hu]; simp

theorem part_fuse_foreign (h : Part c e e') {x : SWC V n} (hP : x.cov.PosSemidef) (hu : Uncorrelated c.tan x.cov) {y : Meas V n}
    (hG : ∀ x, y.model.jacobian x * c.tanᵀ = 0) (hR : ∀ s, (y.model.covariance s).PosSemidef) {rej : Bool}
    {z : SWC V n × Option CorrectDetails} (hz : e.fuse x y none rej = .ok z) :
    z.1.cov.PosSemidef ∧ Uncorrelated c.tan z.1.cov ∧ c.est z.1 = c.est x := by
  obtain ⟨z, d⟩ := z
  refine ⟨(fuse_psd e x y none rej hR hP z d hz).1, ?_⟩
  rcases fuse_cases e x y none rej z d hz with rfl | ⟨yc, -, hdet, rfl⟩
  · exact ⟨hu, rfl⟩
  · have hX := kalman_psd hP (y.model.jacobian x.state) (hR x.state) hdet
    unfold kalmanUpdate
    unfold innovCov at hX ⊢
    simp only [Option.getD_none] at hX ⊢
    rw [symmetrize_eq (psd_symm hX)]
    have hGt : c.tan * (y.model.jacobian x.state)ᵀ = 0 := by
      have := congrArg transpose (hG x.state)
      rwa [transpose_mul, transpose_transpose, transpose_zero] at this
    have hK : c.tan * (x.cov * (y.model.jacobian x.state)ᵀ *
      (y.model.jacobian x.state * x.cov * (y.model.jacobian x.state)ᵀ + y.model.covariance x.state)⁻¹) = 0 := by
      rw [← Matrix.mul_assoc, ← Matrix.mul_assoc, hu.split, Matrix.mul_assoc (c.tan * x.cov * c.tanᵀ), hGt]
      simp
    generalize x.cov * (y.model.jacobian x.state)ᵀ *
      (y.model.jacobian x.state * x.cov * (y.model.jacobian x.state)ᵀ + y.model.covariance x.state)⁻¹ = K at hK hX ⊢
    have hcov : c.tan * ((1 - K * y.model.jacobian x.state) * x.cov) = c.tan * x.cov := by
      rw [← Matrix.mul_assoc, Matrix.mul_sub, Matrix.mul_one, ← Matrix.mul_assoc, hK, Matrix.zero_mul, sub_zero]
    refine ⟨?_, ?_⟩
    · unfold Uncorrelated
      rw [hcov]
      exact hu
    · unfold Change.est Change.st EkfEnv.plusSt
      simp only
      rw [hcov, ← h.same.plus, mulVec_mulVec, hK, zero_mulVec, h.plus_zero]

/-- The relation between the two estimates. -/
def PartRel (c : Change V V' U U' n n') (x : SWC V n) (x' : SWC V' n') : Prop :=
  x' = c.est x ∧ x.cov.PosSemidef ∧ Uncorrelated c.tan x.cov

/-- Measurements of the part with its own model, or of the rest. -/
def PartMeas (c : Change V V' U U' n n') (y : StMeas V n) (y' : StMeas V' n') : Prop :=
  (∀ s, (y.meas.model.covariance s).PosDef) ∧ (SameMeas c y y' ∨ Foreign c y y')

theorem part_predict_rel (h : Part c e e') {x : SWC V n} {x' : SWC V' n'} (hx : PartRel c x x') (u : Inp U) (dt : ℝ) :
    ExRel (PartRel c) (e.predict x (some u) (some dt) none) (e'.predict x' (some (c.input u)) (some dt) none) := by
  obtain ⟨rfl, hP, hu⟩ := hx
  rw [h.same.predict]
  cases hz : e.predict x (some u) (some dt) none with
  | error er => exact rfl
  | ok z => exact ⟨rfl, part_predict h hP hu hz⟩

theorem part_advance_rel (h : Part c e e') {x : SWC V n} {x' : SWC V' n'} (hx : PartRel c x x') (u : Inp U) (y : Meas V n)
    (y' : Meas V' n') {t : ℝ} (hy : y.stamp = some t) (hy' : y'.stamp = some (t + c.shift)) :
    ExRel (PartRel c) (e.advance x y (some u)) (e'.advance x' y' (some (c.input u))) := by
  have hstep : ∀ (z : SWC V n) (z' : SWC V' n') (tx : ℝ), PartRel c z z' →
      ExRel (PartRel c)
        (if t - tx < -(10 ^ 10 : ℝ) then (Except.error Err.runtimeError : Except Err (SWC V n))
          else if t - tx > (1 / 10 ^ 11 : ℝ) then e.predict z (some u) (some (t - tx)) none else Except.ok z)
        (if t + c.shift - (tx + c.shift) < -(10 ^ 10 : ℝ) then (Except.error Err.runtimeError : Except Err (SWC V' n'))
          else if t + c.shift - (tx + c.shift) > (1 / 10 ^ 11 : ℝ)
            then e'.predict z' (some (c.input u)) (some (t + c.shift - (tx + c.shift))) none else Except.ok z') := by
    intro z z' tx hz
    rw [show t + c.shift - (tx + c.shift) = t - tx by ring]
    split
    · exact rfl
    · split
      · exact part_predict_rel h hz u _
      · exact hz
  obtain ⟨hx', hP, hu⟩ := hx
  have hst : x'.state.stamp = x.state.stamp.map (· + c.shift) := by rw [hx']; rfl
  unfold EkfEnv.advance
  rw [hy, hy']
  cases hx1 : x.state.stamp with
  | some tx =>
    rw [hx1] at hst
    simp only [hx1, hst, Option.map_some]
    exact hstep x x' tx ⟨hx', hP, hu⟩
  | none =>
    rw [hx1] at hst
    simp only [hst, Option.map_none]
    exact hstep { x with state := { x.state with stamp := some t } } { x' with state := { x'.state with stamp := some (t + c.shift) } } t
      ⟨by rw [hx']; rfl, hP, hu⟩

theorem Part.sim (h : Part c e e') :
    FilterSim (ekfApi e) (ekfApi e') c.shift (PartRel c) (fun u u' => u' = c.logged u) (PartMeas c) where
  xstamp x x' hx := by rw [hx.1]; rfl
  istamp u u' hu := by subst hu; rfl
  ystamp y y' hy := by
    rcases hy.2 with hy | hy
    · exact hy.1
    · exact hy.1
  predict x x' u u' dt hx hu := by
    subst hu
    exact part_predict_rel h hx ⟨u.value, some u.stamp⟩ dt
  correct x x' u u' y y' hx hu hy := by
    subst hu
    obtain ⟨hR, hy⟩ := hy
    have hst : y'.stamp = y.stamp + c.shift := by
      rcases hy with hy | hy
      · exact hy.1
      · exact hy.1
    show ExRel _ (e.correct x y.meas (some ⟨u.value, some u.stamp⟩) none none)
      (e'.correct x' y'.meas (some (c.input ⟨u.value, some u.stamp⟩)) none none)
    unfold EkfEnv.correct EkfEnv.correctD
    have hadv := part_advance_rel h hx ⟨u.value, some u.stamp⟩ y.meas y'.meas y.hstamp (by rw [y'.hstamp, hst])
    have key : ∀ p q, PartRel c p q → ExRel (fun a b => PartRel c a.1 b.1)
        (e.fuse p y.meas none ((none : Option Bool).getD e.rejectOutliers))
        (e'.fuse q y'.meas none ((none : Option Bool).getD e'.rejectOutliers)) := by
      rintro p q ⟨rfl, hP, hu⟩
      rcases hy with ⟨-, m', hm, hy'⟩ | ⟨-, hG, hn⟩
      · have hf := h.same.fuse p y.meas y'.meas ((none : Option Bool).getD e'.rejectOutliers) hm hy'
        rw [h.same.reject] at hf ⊢
        cases hz : e.fuse p y.meas none ((none : Option Bool).getD e.rejectOutliers) with
        | error er =>
          rw [hz] at hf
          cases hz' : e'.fuse (c.est p) y'.meas none ((none : Option Bool).getD e.rejectOutliers) with
          | error er' => rw [hz'] at hf; cases hf; exact rfl
          | ok r => rw [hz'] at hf; cases hf
        | ok r =>
          rw [hz] at hf
          cases hz' : e'.fuse (c.est p) y'.meas none ((none : Option Bool).getD e.rejectOutliers) with
          | error er' => rw [hz'] at hf; cases hf
          | ok r' =>
            rw [hz'] at hf
            have hf : (Except.ok r'.1 : Except Err (SWC V' n')) = .ok (c.est r.1) := hf
            exact ⟨Except.ok.inj hf, part_fuse_own h hP hu hm (fun s => (hR s).posSemidef) hz⟩
      · rw [fuse_none e' (c.est p) y'.meas none _ (hn _)]
        have htot : ∃ r, e.fuse p y.meas none ((none : Option Bool).getD e.rejectOutliers) = .ok r := by
          cases hyc : y.meas.model.evaluate p.state with
          | none => exact ⟨_, fuse_none e p y.meas none _ hyc⟩
          | some yc =>
            have hd : (innovCov p y.meas none).det ≠ 0 := pd_det (innov_pd hP _ (hR _))
            cases (none : Option Bool).getD e.rejectOutliers with
            | false => exact ⟨_, fuse_noreject e p y.meas none yc hyc hd⟩
            | true =>
              rw [fuse_reject e p y.meas none yc hyc hd]
              split
              · exact ⟨_, rfl⟩
              · exact ⟨_, fuse_noreject e p y.meas none yc hyc hd⟩
        obtain ⟨r, hr⟩ := htot
        rw [hr]
        obtain ⟨k1, k2, k3⟩ := part_fuse_foreign h hP hu hG (fun s => (hR s).posSemidef) hr
        exact ⟨k3.symm, k1, k2⟩
    exact (hadv.bind key).map fun a b hab => hab

/-- **C95, a part of the state.** If a part of the state evolves on its own, is initially uncorrelated with the rest and every
measurement concerns either the part or the rest, then what the filter of the whole says about the part is exactly what a filter of the
part alone says: one by one the same estimates (or the same exception), and the part stays uncorrelated with the rest. (The
measurements of the rest are replaced by measurements without value for the filter of the part: it only moves to their stamps.) -/
theorem C95_part (h : Part c e e') (x0 : SWC V n) (hP : x0.cov.PosSemidef) (hu : Uncorrelated c.tan x0.cov)
    (ins : List (StInp U)) (meas : List (StMeas V n)) (meas' : List (StMeas V' n')) (hm : List.Forall₂ (PartMeas c) meas meas') :
    runFilter (ekfApi e') (c.est x0) (ins.map c.logged) meas' = (runFilter (ekfApi e) x0 ins meas).map (List.map c.est) ∧
    ∀ rs, runFilter (ekfApi e) x0 ins meas = .ok rs → ∀ r ∈ rs, Uncorrelated c.tan r.cov := by
  have hr := h.sim.runFilter (x0 := x0) (x0' := c.est x0) ⟨rfl, hP, hu⟩ (ins := ins) (ins' := ins.map c.logged) (by
    rw [List.forall₂_map_right_iff]
    exact List.forall₂_same.mpr fun u _ => rfl) hm
  refine ⟨exRel_map (hr.mono fun l l' hl => hl.imp fun _ _ h => h.1), fun rs hrs r hmem => ?_⟩
  rw [hrs] at hr
  cases hq : runFilter (ekfApi e') (c.est x0) (ins.map c.logged) meas' with
  | error er => rw [hq] at hr; exact hr.elim
  | ok rs' =>
    rw [hq] at hr
    have hr2 : List.Forall₂ (PartRel c) rs rs' := hr
    clear hr hq hrs hm
    induction hr2 with
    | nil => simp at hmem
    | cons h1 _ ih =>
      rcases List.mem_cons.mp hmem with rfl | hmem
      · exact h1.2.2
      · exact ih hmem

/-! ### Composite states -/

variable {N : ℕ} {VV UU : Fin N → Type} {d : Fin N → ℕ}

/-- The rows of the identity matrix at the coordinates of the `i`-th sub-state. -/
def subRows (d : Fin N → ℕ) (i : Fin N) : Mat (d i) (∑ i, d i) := fun a b => if b = coord d i a then 1 else 0

theorem subRows_mulVec (i : Fin N) (v : Vec (∑ i, d i)) : subRows d i *ᵥ v = fun a => v (coord d i a) := by
  funext a
  simp [mulVec, dotProduct, subRows]

theorem subRows_mul {k : ℕ} (i : Fin N) (X : Mat (∑ i, d i) k) : subRows d i * X = X.submatrix (coord d i) id := by
  ext a b
  simp [Matrix.mul_apply, subRows]

theorem mul_subRows {k : ℕ} (i : Fin N) (X : Mat k (∑ i, d i)) : X * (subRows d i)ᵀ = X.submatrix id (coord d i) := by
  ext a b
  simp [Matrix.mul_apply, subRows]

theorem coord_inj {i : Fin N} {a b : Fin (d i)} : coord d i a = coord d i b ↔ a = b := by
  unfold coord
  rw [finSigmaFinEquiv.injective.eq_iff]
  simp

theorem coord_ne {i j : Fin N} (h : i ≠ j) (a : Fin (d i)) (b : Fin (d j)) : coord d i a ≠ coord d j b := by
  unfold coord
  intro hc
  have := finSigmaFinEquiv.injective hc
  exact h (congrArg Sigma.fst this)

theorem coord_exists (b : Fin (∑ i, d i)) : ∃ i a, b = coord d i a :=
  ⟨(finSigmaFinEquiv.symm b).1, (finSigmaFinEquiv.symm b).2, by simp [coord]⟩

theorem subRows_self (i : Fin N) : subRows d i * (subRows d i)ᵀ = 1 := by
  rw [subRows_mul]
  ext a b
  simp only [submatrix_apply, transpose_apply, id, subRows, coord_inj, Matrix.one_apply]

theorem subRows_other {i j : Fin N} (h : i ≠ j) : subRows d i * (subRows d j)ᵀ = 0 := by
  rw [subRows_mul]
  ext a b
  simp [subRows, coord_ne h]

theorem subRows_sum : ∑ i, (subRows d i)ᵀ * subRows d i = 1 := by
  ext p q
  obtain ⟨i, a, rfl⟩ := coord_exists p
  rw [Matrix.sum_apply, Finset.sum_eq_single i]
  · rw [Matrix.mul_apply, Finset.sum_eq_single a]
    · simp [subRows, Matrix.one_apply, eq_comm]
    · intro b _ hb
      simp [subRows, coord_inj, hb.symm]
    · simp
  · intro j _ hj
    simp [Matrix.mul_apply, subRows, coord_ne hj.symm]
  · simp

theorem blockDiag_coord (A : (i : Fin N) → Mat (d i) (d i)) (i : Fin N) (a b : Fin (d i)) :
    blockDiag A (coord d i a) (coord d i b) = A i a b := by
  simp [blockDiag, coord, blockDiagonal'_apply]

theorem blockDiag_coord_ne (A : (i : Fin N) → Mat (d i) (d i)) {i j : Fin N} (h : i ≠ j) (a : Fin (d i)) (b : Fin (d j)) :
    blockDiag A (coord d i a) (coord d j b) = 0 := by
  simp [blockDiag, coord, blockDiagonal'_apply, h]

theorem padded_coord {m : ℕ} (i : Fin N) (J : Mat m (d i)) (r : Fin m) (c : Fin (d i)) : padded i J r (coord d i c) = J r c := by
  unfold padded coord
  rw [Equiv.symm_apply_apply]
  simp [padEntry]

theorem padded_coord_ne {m : ℕ} {i j : Fin N} (h : j ≠ i) (J : Mat m (d i)) (r : Fin m) (c : Fin (d j)) :
    padded i J r (coord d j c) = 0 := by
  unfold padded coord
  rw [Equiv.symm_apply_apply]
  simp [padEntry, h]

theorem padded_eq {m : ℕ} (i : Fin N) (J : Mat m (d i)) : padded i J = J * subRows d i := by
  ext r b
  obtain ⟨j, c, rfl⟩ := coord_exists b
  by_cases h : j = i
  · subst h
    rw [padded_coord]
    simp [Matrix.mul_apply, subRows, coord_inj]
  · rw [padded_coord_ne h]
    simp [Matrix.mul_apply, subRows, coord_ne h]

theorem subRows_blockDiag (A : (i : Fin N) → Mat (d i) (d i)) (i : Fin N) : subRows d i * blockDiag A = A i * subRows d i := by
  rw [subRows_mul, ← padded_eq]
  ext a b
  obtain ⟨j, c, rfl⟩ := coord_exists b
  rw [submatrix_apply, id]
  by_cases h : j = i
  · subst h
    rw [blockDiag_coord, padded_coord]
  · rw [blockDiag_coord_ne A (Ne.symm h), padded_coord_ne h]

theorem blockDiag_transpose (A : (i : Fin N) → Mat (d i) (d i)) : (blockDiag A)ᵀ = blockDiag fun i => (A i)ᵀ := by
  unfold blockDiag
  rw [transpose_submatrix, blockDiagonal'_transpose]

theorem blockDiag_subRows (A : (i : Fin N) → Mat (d i) (d i)) (i : Fin N) :
    blockDiag A * (subRows d i)ᵀ = (subRows d i)ᵀ * A i := by
  have := congrArg transpose (subRows_blockDiag (fun i => (A i)ᵀ) i)
  rwa [transpose_mul, transpose_mul, blockDiag_transpose, transpose_transpose] at this

theorem blockDiag_psd {A : (i : Fin N) → Mat (d i) (d i)} (h : ∀ i, (A i).PosSemidef) : (blockDiag A).PosSemidef := by
  have e : blockDiag A = ∑ i, (subRows d i)ᵀ * A i * subRows d i := by
    calc blockDiag A = blockDiag A * ∑ i, (subRows d i)ᵀ * subRows d i := by rw [subRows_sum, Matrix.mul_one]
      _ = _ := by
        rw [Matrix.mul_sum]
        refine Finset.sum_congr rfl fun i _ => ?_
        rw [← Matrix.mul_assoc, blockDiag_subRows]
  rw [e]
  refine Matrix.posSemidef_sum _ fun i _ => ?_
  have := psd_conj (h i) (subRows d i)ᵀ
  rwa [transpose_transpose] at this

theorem uncorrelated_iff (P : Mat (∑ i, d i) (∑ i, d i)) (i : Fin N) :
    Uncorrelated (subRows d i) P ↔ ∀ j, j ≠ i → ∀ a b, P (coord d i a) (coord d j b) = 0 := by
  have hb : ∀ j a b, (subRows d i * P * (subRows d j)ᵀ) a b = P (coord d i a) (coord d j b) := by
    intro j a b
    rw [mul_subRows, subRows_mul]
    rfl
  constructor
  · intro h j hj a b
    rw [← hb, h.split, Matrix.mul_assoc _ (subRows d i), subRows_other hj.symm, Matrix.mul_zero]
    rfl
  · intro h
    have : (1 : Mat (∑ i, d i) (∑ i, d i)) - (subRows d i)ᵀ * subRows d i = ∑ j ∈ Finset.univ.erase i, (subRows d j)ᵀ * subRows d j := by
      have h1 := (Finset.add_sum_erase Finset.univ (fun j => (subRows d j)ᵀ * subRows d j) (Finset.mem_univ i)).trans subRows_sum
      rw [← h1]
      exact add_sub_cancel_left _ _
    unfold Uncorrelated
    rw [this, Matrix.mul_sum]
    refine Finset.sum_eq_zero fun j hj => ?_
    rw [← Matrix.mul_assoc]
    have hz : subRows d i * P * (subRows d j)ᵀ = 0 := by
      ext a b
      rw [hb, h j (Finset.ne_of_mem_erase hj)]
      rfl
    rw [hz, Matrix.zero_mul]

/-- Looking at the `i`-th sub-state only (with the stamp of the composite). -/
def partChange (VV UU : Fin N → Type) (d : Fin N → ℕ) (i : Fin N) :
    Change (SubStates VV) (VV i) (SubInputs UU) (UU i) (∑ i, d i) (d i) where
  val v := (v i).value
  inp u := (u i).value
  tan := subRows d i
  shift := 0

/-- What an estimate of the composite says about the `i`-th sub-state: its value, the stamp of the composite, its diagonal block of
the covariance. -/
def partEst (i : Fin N) (x : SWC (SubStates VV) (∑ i, d i)) : SWC (VV i) (d i) :=
  ⟨⟨(x.state.value i).value, x.state.stamp⟩, x.cov.submatrix (coord d i) (coord d i)⟩

theorem partEst_eq (i : Fin N) (x : SWC (SubStates VV) (∑ i, d i)) : (partChange VV UU d i).est x = partEst i x := by
  unfold Change.est Change.st partChange partEst
  simp only [add_zero, Option.map_id', mul_subRows, subRows_mul]
  rfl

/-- The parts of a composite system are parts in the sense of `C95_part`. -/
theorem composite_part (s : (i : Fin N) → Sys (VV i) (UU i) (d i)) (rej : Bool) (chi2 : ℕ → ℝ)
    (hQ : ∀ i v u dt, 0 ≤ dt → ((s i).covariance v u dt).PosSemidef) (hp : ∀ i v, (s i).plus v 0 = v) (i : Fin N) :
    Part (partChange VV UU d i) (compositeEnv s rej chi2) ((s i).env rej chi2) where
  same :=
    { evaluate := fun x u dt => rfl
      jacobian := fun x u dt => (subRows_blockDiag (fun i => (s i).jacobian (x.value i).value (u.value i).value dt) i).symm
      covariance := fun x u dt => by
        show _ = subRows d i * blockDiag _ * (subRows d i)ᵀ
        rw [subRows_blockDiag, Matrix.mul_assoc, subRows_self, Matrix.mul_one]
        rfl
      plus := fun v dx => by
        show (s i).plus _ (subRows d i *ᵥ dx) = _
        rw [subRows_mulVec]
        rfl
      reject := rfl
      chi2 := rfl }
  select := subRows_self i
  jacobian x u dt := by
    show (1 - (subRows d i)ᵀ * subRows d i) * blockDiag _ * (subRows d i)ᵀ = 0
    rw [Matrix.mul_assoc, blockDiag_subRows, Matrix.sub_mul, Matrix.one_mul, Matrix.mul_assoc, ← Matrix.mul_assoc (subRows d i),
      subRows_self, Matrix.one_mul, sub_self]
  covariance x u dt hdt := by
    refine ⟨blockDiag_psd fun i => hQ i _ _ _ hdt, ?_⟩
    show subRows d i * blockDiag _ * (1 - (subRows d i)ᵀ * subRows d i) = 0
    rw [subRows_blockDiag, Matrix.mul_sub, Matrix.mul_one, Matrix.mul_assoc, ← Matrix.mul_assoc (subRows d i), subRows_self,
      Matrix.one_mul, sub_self]
  plus_zero v := hp i v

/-- A measurement of one of the sub-states. -/
structure Reading (VV : Fin N → Type) (d : Fin N → ℕ) where
  of : Fin N
  m : ℕ
  sensor : Sensor (VV of) (d of) m
  value : Vec m
  stamp : ℝ

/-- `CompositeMeasurement(y, state_id)` (`composite.py:570-588`). -/
def Reading.composite (y : Reading VV d) : StMeas (SubStates VV) (∑ i, d i) :=
  ⟨⟨y.m, y.value, some y.stamp, y.sensor.composite⟩, y.stamp, rfl⟩

/-- A sensor that has nothing to say: `evaluate` returns `None`. -/
def silent (V : Type) (n : ℕ) : Sensor V n 0 := ⟨fun _ => none, fun _ => 0, fun _ => 0⟩

/-- The measurement for the filter of the `i`-th sub-state alone: itself if it measures the `i`-th sub-state; otherwise a measurement
that only tells the time. -/
noncomputable def Reading.for (y : Reading VV d) (i : Fin N) : StMeas (VV i) (d i) :=
  open Classical in
  if h : y.of = i then ⟨⟨y.m, y.value, some y.stamp, (h ▸ y.sensor : Sensor (VV i) (d i) y.m).model⟩, y.stamp, rfl⟩
  else ⟨⟨0, 0, some y.stamp, (silent (VV i) (d i)).model⟩, y.stamp, rfl⟩

theorem reading_part (i : Fin N) (y : Reading VV d) (hR : ∀ v, (y.sensor.covariance v).PosDef) :
    PartMeas (partChange VV UU d i) y.composite (y.for i) := by
  refine ⟨fun s => hR _, ?_⟩
  obtain ⟨j, m, h, value, stamp⟩ := y
  by_cases hj : j = i
  · subst hj
    left
    have e : (Reading.mk j m h value stamp).for j = ⟨⟨m, value, some stamp, h.model⟩, stamp, rfl⟩ := by
      unfold Reading.for
      simp
    rw [e]
    refine ⟨(add_zero stamp).symm, h.model, ⟨fun x => rfl, fun x => (padded_eq _ _).symm, fun x => rfl⟩, ?_⟩
    show (⟨m, value, some stamp, h.model⟩ : Meas (VV j) (d j)) = ⟨m, value, some (stamp + 0), h.model⟩
    rw [add_zero]
  · right
    have e : (Reading.mk j m h value stamp).for i = ⟨⟨0, 0, some stamp, (silent (VV i) (d i)).model⟩, stamp, rfl⟩ := by
      unfold Reading.for
      simp [hj]
    rw [e]
    refine ⟨(add_zero stamp).symm, fun x => ?_, fun x => rfl⟩
    show padded j (h.jacobian (x.value j).value) * (subRows d i)ᵀ = 0
    rw [padded_eq, Matrix.mul_assoc, subRows_other hj, Matrix.mul_zero]

/-- **C95, composite states.** Running the EKF on a composite state with a `CompositeProcessModel`, with any log of inputs and any log of
measurements of single sub-states, starting with independent sub-states, is the same as running one EKF for each sub-state: for every
sub-state its values, stamps and blocks of the covariance (or the exception) are those of the filter of this sub-state alone, and the
sub-states stay uncorrelated. -/
theorem C95_composite (s : (i : Fin N) → Sys (VV i) (UU i) (d i)) (rej : Bool) (chi2 : ℕ → ℝ)
    (hQ : ∀ i v u dt, 0 ≤ dt → ((s i).covariance v u dt).PosSemidef) (hp : ∀ i v, (s i).plus v 0 = v)
    (x0 : SWC (SubStates VV) (∑ i, d i)) (hP : x0.cov.PosSemidef)
    (h0 : ∀ i j, j ≠ i → ∀ a b, x0.cov (coord d i a) (coord d j b) = 0)
    (ins : List (StInp (SubInputs UU))) (ys : List (Reading VV d)) (hR : ∀ y ∈ ys, ∀ v, (y.sensor.covariance v).PosDef) (i : Fin N) :
    runFilter (ekfApi ((s i).env rej chi2)) (partEst i x0) (ins.map fun u => ⟨(u.value i).value, u.stamp⟩) (ys.map fun y => y.for i)
      = (runFilter (ekfApi (compositeEnv s rej chi2)) x0 ins (ys.map Reading.composite)).map (List.map (partEst i)) ∧
    ∀ rs, runFilter (ekfApi (compositeEnv s rej chi2)) x0 ins (ys.map Reading.composite) = .ok rs →
      ∀ r ∈ rs, ∀ j, j ≠ i → ∀ a b, r.cov (coord d i a) (coord d j b) = 0 := by
  have hm : List.Forall₂ (PartMeas (partChange VV UU d i)) (ys.map Reading.composite) (ys.map fun y => y.for i) := by
    rw [List.forall₂_map_left_iff, List.forall₂_map_right_iff]
    exact List.forall₂_same.mpr fun y hy => reading_part i y (hR y hy)
  obtain ⟨h1, h2⟩ := C95_part (composite_part s rej chi2 hQ hp i) x0 hP ((uncorrelated_iff _ i).mpr (h0 i)) ins _ _ hm
  have e1 : (partChange VV UU d i).est = partEst i := funext (partEst_eq i)
  have e2 : (partChange VV UU d i).logged = fun u => ⟨(u.value i).value, u.stamp⟩ := by
    funext u
    unfold Change.logged partChange
    simp
  rw [e1, e2] at h1
  exact ⟨h1, fun rs hrs r hr => (uncorrelated_iff _ i).mp (h2 rs hrs r hr)⟩

/-! ### The arrays of `Model/Composite.lean` -/

/-- A matrix as an array. -/
noncomputable def arrayOf {r c : ℕ} (A : Mat r c) : DMat :=
  ⟨r, c, fun i j => if h : i < r ∧ j < c then A ⟨i, h.1⟩ ⟨j, h.2⟩ else 0⟩

theorem arrayOf_get {r c : ℕ} (A : Mat r c) (i : Fin r) (j : Fin c) : (arrayOf A).get i j = A i j := by
  simp [arrayOf]

theorem coord_val (i : Fin N) (a : Fin (d i)) :
    (coord d i a : ℕ) = ∑ j : Fin (i : ℕ), d (Fin.castLE i.2.le j) + a := finSigmaFinEquiv_apply _

theorem offset_ofFn (A : (i : Fin N) → Mat (d i) (d i)) (f : DMat → ℕ) (hf : ∀ i, f (arrayOf (A i)) = d i) (i : Fin N) :
    (((List.ofFn fun i => arrayOf (A i)).take i).map f).sum = ∑ j : Fin (i : ℕ), d (Fin.castLE i.2.le j) := by
  rw [← List.sum_ofFn]
  congr 1
  refine List.ext_getElem (by simp) fun k h1 h2 => ?_
  simp [hf]

/-- `blockDiag` is the array `blockDiagList` of `Model/Composite.lean`. -/
theorem blockDiag_array (A : (i : Fin N) → Mat (d i) (d i)) :
    (arrayOf (blockDiag A)).Same (blockDiagList (List.ofFn fun i => arrayOf (A i))) := by
  obtain ⟨h1, h2, h3⟩ := blockDiagList_spec (List.ofFn fun i => arrayOf (A i))
  have hr : ((List.ofFn fun i => arrayOf (A i)).map DMat.rows).sum = ∑ i, d i := by
    rw [← List.sum_ofFn]; congr 1; simp [List.map_ofFn, Function.comp_def, arrayOf]
  have hc : ((List.ofFn fun i => arrayOf (A i)).map DMat.cols).sum = ∑ i, d i := by
    rw [← List.sum_ofFn]; congr 1; simp [List.map_ofFn, Function.comp_def, arrayOf]
  refine ⟨(h1.trans hr).symm, (h2.trans hc).symm, fun p q hp hq => ?_⟩
  obtain ⟨i, a, hi⟩ := coord_exists (d := d) ⟨p, hp⟩
  obtain ⟨j, b, hj⟩ := coord_exists (d := d) ⟨q, hq⟩
  have hp' : p = coord d i a := congrArg Fin.val hi
  have hq' : q = coord d j b := congrArg Fin.val hj
  subst hp' hq'
  rw [arrayOf_get]
  have h4 := h3 i j (by simp) (by simp) a b (by simp [arrayOf]) (by simp [arrayOf])
  unfold rowOff colOff at h4
  rw [offset_ofFn A _ (fun _ => rfl), offset_ofFn A _ (fun _ => rfl), ← coord_val, ← coord_val] at h4
  rw [h4]
  by_cases h : i = j
  · subst h
    rw [blockDiag_coord]
    simp [arrayOf_get]
  · rw [blockDiag_coord_ne A h, if_neg (fun hc => h (Fin.ext hc))]

/-- `padded` is the array that `CompositeMeasurementModel.jacobian` builds: zeros everywhere except in the columns of the slice. -/
theorem padded_array {m : ℕ} (i : Fin N) (J : Mat m (d i)) :
    ∃ A, (DMat.zeros m (∑ i, d i)).setBlock ⟨0, m⟩
      ⟨∑ j : Fin (i : ℕ), d (Fin.castLE i.2.le j), (∑ j : Fin (i : ℕ), d (Fin.castLE i.2.le j)) + d i⟩ (arrayOf J) = .ok A ∧
      (arrayOf (padded i J)).Same A := by
  set o := ∑ j : Fin (i : ℕ), d (Fin.castLE i.2.le j) with ho
  have hle : o + d i ≤ ∑ i, d i := by
    rcases Nat.eq_zero_or_pos (d i) with h0 | hpos
    · rw [h0, ho, add_zero]
      calc ∑ j : Fin (i : ℕ), d (Fin.castLE i.2.le j) = ∑ k ∈ Finset.univ.map (Fin.castLEEmb i.2.le), d k := by
            rw [Finset.sum_map]; rfl
        _ ≤ _ := Finset.sum_le_sum_of_subset (Finset.subset_univ _)
    · have h1 := (coord d i ⟨d i - 1, by omega⟩).2
      rw [coord_val] at h1
      simp only at h1
      omega
  have c1 : (arrayOf J).rows = (Slice.mk 0 m).len (DMat.zeros m (∑ i, d i)).rows := by
    simp [arrayOf, DMat.zeros, Slice.len]
  have c2 : (arrayOf J).cols = (Slice.mk o (o + d i)).len (DMat.zeros m (∑ i, d i)).cols := by
    simp only [arrayOf, DMat.zeros, Slice.len]
    omega
  refine ⟨_, if_pos ⟨Or.inl c1, Or.inl c2⟩, rfl, rfl, fun p q hp hq => ?_⟩
  · obtain ⟨j, b, hj⟩ := coord_exists (d := d) ⟨q, hq⟩
    have hq' : q = coord d j b := congrArg Fin.val hj
    have hp : p < m := hp
    have e := arrayOf_get (padded i J) ⟨p, hp⟩ (coord d j b)
    simp only at e
    rw [hq', e]
    show _ = if 0 ≤ p ∧ p < m ∧ o ≤ (coord d j b : ℕ) ∧ (coord d j b : ℕ) < o + d i then
        (arrayOf J).get (if (arrayOf J).rows = 1 then 0 else p - 0) (if (arrayOf J).cols = 1 then 0 else (coord d j b : ℕ) - o)
      else 0
    by_cases h : j = i
    · subst h
      have hb := b.2
      rw [padded_coord, if_pos (by rw [coord_val, ← ho]; exact ⟨Nat.zero_le _, hp, by omega, by omega⟩), coord_val, ← ho]
      have e1 : (if (arrayOf J).rows = 1 then 0 else p - 0) = p := by
        split
        · rename_i h1
          have : m = 1 := h1
          omega
        · rfl
      have e2 : (if (arrayOf J).cols = 1 then 0 else o + b - o) = b := by
        split
        · rename_i h1
          have : d j = 1 := h1
          omega
        · omega
      simp only [e1, e2]
      exact (arrayOf_get J ⟨p, hp⟩ b).symm
    · rw [padded_coord_ne h, if_neg]
      · rintro ⟨-, -, h1, h2⟩
        have h3 : (coord d j b : ℕ) - o < d i := by omega
        refine coord_ne (d := d) (Ne.symm h) ⟨_, h3⟩ b (Fin.ext ?_)
        rw [coord_val, ← ho]
        simp only
        omega

/-- **C95, stamps of the sub-states.** A run of the filter never changes the stamps of the sub-states of a composite state: only the
stamp of the composite moves. -/
theorem C95_sub_stamps (s : (i : Fin N) → Sys (VV i) (UU i) (d i)) (rej : Bool) (chi2 : ℕ → ℝ)
    (x0 : SWC (SubStates VV) (∑ i, d i)) (ins : List (StInp (SubInputs UU))) (ys : List (StMeas (SubStates VV) (∑ i, d i)))
    (rs : List (SWC (SubStates VV) (∑ i, d i)))
    (h : runFilter (ekfApi (compositeEnv s rej chi2)) x0 ins ys = .ok rs) :
    ∀ r ∈ rs, ∀ i, (r.state.value i).stamp = (x0.state.value i).stamp := by
  set e := compositeEnv s rej chi2 with he
  have hpred : ∀ (x z : SWC (SubStates VV) (∑ i, d i)) u dt, e.predict x (some u) (some dt) none = .ok z →
      ∀ i, (z.state.value i).stamp = (x.state.value i).stamp := by
    intro x z u dt hz i
    obtain ⟨t, d, -, -, ⟨h, -⟩ | ⟨u', -, rfl⟩⟩ := predict_cases e x _ _ _ z hz
    · cases h
    · rfl
  have hadv : ∀ (x z : SWC (SubStates VV) (∑ i, d i)) y u, e.advance x y (some u) = .ok z →
      ∀ i, (z.state.value i).stamp = (x.state.value i).stamp := by
    intro x z y u hz i
    obtain h | ⟨x1, dt, -, h1, h2⟩ := advance_cases e x y (some u) z hz
    · rw [h.2]
    · rw [hpred x1 z u dt h2, h1]
  have hcor : ∀ (x z : SWC (SubStates VV) (∑ i, d i)) y u, e.correct x y (some u) none none = .ok z →
      ∀ i, (z.state.value i).stamp = (x.state.value i).stamp := by
    intro x z y u hz i
    unfold EkfEnv.correct EkfEnv.correctD at hz
    cases hc : e.advance x y (some u) with
    | error er => rw [hc] at hz; cases hz
    | ok w =>
      rw [hc] at hz
      cases hf : e.fuse w y none ((none : Option Bool).getD e.rejectOutliers) with
      | error er =>
        have hz : (e.fuse w y none ((none : Option Bool).getD e.rejectOutliers)).map Prod.fst = .ok z := hz
        rw [hf] at hz; cases hz
      | ok r =>
        have hz : (e.fuse w y none ((none : Option Bool).getD e.rejectOutliers)).map Prod.fst = .ok z := hz
        rw [hf] at hz
        have hz : r.1 = z := Except.ok.inj hz
        rw [← hadv x w y u hc i]
        obtain h | ⟨yc, -, -, h⟩ := fuse_cases e w y none _ r.1 r.2 hf
        · rw [← hz, h]
        · rw [← hz, h]; rfl
  have hself : FilterSim (ekfApi e) (ekfApi e) 0 (fun x x' => x = x' ∧ ∀ i, (x.state.value i).stamp = (x0.state.value i).stamp)
      Eq Eq := by
    refine ⟨fun x x' h => ?_, fun u u' h => by rw [h, add_zero], fun y y' h => by rw [h, add_zero], ?_, ?_⟩
    · rw [← h.1]; simp
    · rintro x x' u u' dt ⟨rfl, hx⟩ rfl
      show ExRel _ (e.predict x (some ⟨u.value, some u.stamp⟩) (some dt) none) (e.predict x (some ⟨u.value, some u.stamp⟩) (some dt) none)
      cases hz : e.predict x (some ⟨u.value, some u.stamp⟩) (some dt) none with
      | error er => exact rfl
      | ok z => exact ⟨rfl, fun i => (hpred x z _ dt hz i).trans (hx i)⟩
    · rintro x x' u u' y y' ⟨rfl, hx⟩ rfl rfl
      show ExRel _ (e.correct x y.meas (some ⟨u.value, some u.stamp⟩) none none)
        (e.correct x y.meas (some ⟨u.value, some u.stamp⟩) none none)
      cases hz : e.correct x y.meas (some ⟨u.value, some u.stamp⟩) none none with
      | error er => exact rfl
      | ok z => exact ⟨rfl, fun i => (hcor x z _ _ hz i).trans (hx i)⟩
  have hr := hself.runFilter (x0 := x0) (x0' := x0) ⟨rfl, fun _ => rfl⟩ (ins := ins) (ins' := ins)
    (List.forall₂_same.mpr fun _ _ => rfl) (List.forall₂_same.mpr fun _ _ => rfl : List.Forall₂ Eq ys ys)
  rw [h] at hr
  have hr2 : List.Forall₂ (fun x x' => x = x' ∧ ∀ i, (x.state.value i).stamp = (x0.state.value i).stamp) rs rs := hr
  intro r hmem
  obtain ⟨k, hk, rfl⟩ := List.getElem_of_mem hmem
  exact ((List.forall₂_iff_get.mp hr2).2 k hk hk).2

/-! ### A case -/

/-- A scalar random walk driven by its input. -/
noncomputable def walk : Sys ℝ ℝ 1 := ⟨fun v u dt => v + u * dt, fun _ _ _ => 1, fun _ _ dt => dt • 1, fun v dx => v + dx 0⟩

/-- Two of them with `P = 1`, inputs and measurements of both. -/
example : ∃ (x0 : SWC (SubStates fun _ : Fin 2 => ℝ) (∑ _i : Fin 2, 1)) (ins : List (StInp (SubInputs fun _ : Fin 2 => ℝ)))
    (ys : List (Reading (fun _ : Fin 2 => ℝ) fun _ => 1)),
    x0.cov.PosSemidef ∧ (∀ i j, j ≠ i → ∀ a b, x0.cov (coord (fun _ => 1) i a) (coord (fun _ => 1) j b) = 0) ∧
    (∀ y ∈ ys, ∀ v, (y.sensor.covariance v).PosDef) ∧ ys.map Reading.of = [0, 1] ∧ ins ≠ [] ∧
    (∀ (i : Fin 2) v u dt, 0 ≤ dt → (((fun _ : Fin 2 => walk) i).covariance v u dt).PosSemidef) ∧
    ∀ (i : Fin 2) v, ((fun _ : Fin 2 => walk) i).plus v 0 = v := by
  refine ⟨⟨⟨fun _ => ⟨0, none⟩, some 0⟩, 1⟩, [⟨fun _ => ⟨1, none⟩, 1⟩],
    [⟨0, 1, ⟨fun v => some fun _ => v, fun _ => 1, fun _ => 1⟩, 0, 1⟩, ⟨1, 1, ⟨fun v => some fun _ => v, fun _ => 1, fun _ => 1⟩, 0, 2⟩],
    Matrix.PosSemidef.one, fun i j h a b => ?_, ?_, rfl, by simp, fun i v u dt hdt => Matrix.PosSemidef.one.smul hdt,
    fun i v => add_zero v⟩
  · exact Matrix.one_apply_ne (coord_ne (d := fun _ => 1) h.symm a b)
  · intro y hy v
    simp only [List.mem_cons, List.not_mem_nil, or_false] at hy
    rcases hy with rfl | rfl <;> exact Matrix.PosDef.one

end Verif
