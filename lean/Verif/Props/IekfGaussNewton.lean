import Verif.Props.PerfectFilter

/-!
C104: the passes of the iterated Kalman filter are Gauss-Newton steps.
-/

namespace Verif

set_option linter.unusedVariables false
set_option linter.unusedSectionVars false

open Matrix

variable {V U S : Type} {n : ℕ}

/-! ### Two residuals on one variable -/

/-- The started problem of one variable and two residuals. -/
noncomputable def twoProb (cfg : ProbCfg) (k : ℕ) (x0 : S) (r1 r2 : Residual ℕ S) (p q n : ℕ) : Prob ℕ S :=
  ⟨cfg, [(k, x0)], [], [r1, r2], [l2Loss, l2Loss], [(k, x0)], [(k, ⟨0, n⟩)], [⟨0, p⟩, ⟨p, p + q⟩], p + q, n, [], none, none⟩

/-- Its stacked Jacobian. -/
def stackRows {p q n : ℕ} (J1 : Mat p n) (J2 : Mat q n) : Mat (p + q) n := fun i => Fin.append (fun a => J1 a) (fun a => J2 a) i

/-- Its linearization. -/
noncomputable def twoLin {p q n : ℕ} (e1 : Vec p) (e2 : Vec q) (J1 : Mat p n) (J2 : Mat q n) : Lin :=
  ⟨p + q, n, Fin.append e1 e2, stackRows J1 J2, 0 + l2Loss.loss (listNorm (List.ofFn e1)) + l2Loss.loss (listNorm (List.ofFn e2))⟩

theorem append_lt {p q : ℕ} {α : Type} (a : Fin p → α) (b : Fin q → α) (i : Fin (p + q)) (h : i.1 < p) :
    Fin.append a b i = a ⟨i.1, h⟩ := by
  have : i = Fin.castAdd q ⟨i.1, h⟩ := Fin.ext rfl
  conv_lhs => rw [this]
  rw [Fin.append_left]

theorem append_ge {p q : ℕ} {α : Type} (a : Fin p → α) (b : Fin q → α) (i : Fin (p + q)) (h : ¬ i.1 < p) :
    Fin.append a b i = b ⟨i.1 - p, by have := i.2; omega⟩ := by
  have : i = Fin.natAdd p ⟨i.1 - p, by have := i.2; omega⟩ := Fin.ext (by simp; omega)
  conv_lhs => rw [this]
  rw [Fin.append_right]

theorem setSeg_full {N a b : ℕ} (e : ℕ → ℝ) {p : ℕ} (v : Vec p) (hb : b = a + p) (hN : b ≤ N) :
    setSeg N e ⟨a, b⟩ (List.ofFn v) = .ok fun i => if h : a ≤ i ∧ i < b then v ⟨i - a, by omega⟩ else e i := by
  unfold setSeg
  rw [if_pos (Or.inl (by rw [List.length_ofFn]; unfold Slice.len; simp only; omega))]
  congr 1
  funext i
  by_cases h : a ≤ i ∧ i < b
  · rw [if_pos h, dif_pos h]
    have hi : (if (List.ofFn v).length = 1 then 0 else i - a) = i - a := by
      split
      · rename_i h1
        rw [List.length_ofFn] at h1
        omega
      · rfl
    rw [hi, List.getD_eq_getElem?_getD, List.getElem?_ofFn, dif_pos (by omega)]
    rfl
  · rw [if_neg h, dif_neg h]

theorem setBlock_full {A : DMat} {a b p n : ℕ} (J : Mat p n) (hb : b = a + p) (hr : b ≤ A.rows) (hc : A.cols = n) :
    A.setBlock ⟨a, b⟩ ⟨0, n⟩ (DMat.ofMat J) = .ok ⟨A.rows, A.cols, fun i j =>
      if h : a ≤ i ∧ i < b ∧ j < n then J ⟨i - a, by omega⟩ ⟨j, h.2.2⟩ else A.get i j⟩ := by
  unfold DMat.setBlock
  have h1 : (DMat.ofMat J).rows = p := rfl
  have h2 : (DMat.ofMat J).cols = n := rfl
  rw [if_pos ⟨Or.inl (by rw [h1]; unfold Slice.len; simp only; omega), Or.inl (by
    rw [h2]; unfold Slice.len; simp only; omega)⟩]
  congr 2
  funext i j
  rw [h1, h2]
  simp only [Nat.zero_le, true_and, Nat.sub_zero]
  by_cases h : a ≤ i ∧ i < b ∧ j < n
  · rw [if_pos h, dif_pos h]
    have hi : (if p = 1 then 0 else i - a) = i - a := by split <;> omega
    have hj : (if n = 1 then 0 else j) = j := by split <;> omega
    rw [hi, hj]
    show (if h : i - a < p ∧ j < n then J ⟨i - a, h.1⟩ ⟨j, h.2⟩ else 0) = _
    rw [dif_pos ⟨by omega, h.2.2⟩]
  · rw [if_neg h, dif_neg h]

theorem scale_one (J : DMat) : J.scale 1 = J := by
  obtain ⟨r, c, g⟩ := J
  unfold DMat.scale
  simp only [one_mul]

theorem two_linearize {cfg : ProbCfg} {k : ℕ} {x0 x : S} {r1 r2 : Residual ℕ S} {p q n : ℕ} (k1 : r1.keys = [k])
    (k2 : r2.keys = [k]) {e1 : Vec p} {e2 : Vec q} {J1 : Mat p n} {J2 : Mat q n}
    (h1 : r1.error [x] = .ok (List.ofFn e1)) (h2 : r2.error [x] = .ok (List.ofFn e2))
    (j1 : r1.jacobians [x] [true] = .ok [some (DMat.ofMat J1)]) (j2 : r2.jacobians [x] [true] = .ok [some (DMat.ofMat J2)]) :
    (twoProb cfg k x0 r1 r2 p q n).linearize [(k, x)] = .ok (twoLin e1 e2 J1 J2) := by
  have hl : lookupAll [(k, x)] [k] = .ok [x] := by
    unfold lookupAll dictGet
    rw [lookup_cons_self]
    rfl
  have hv : dictGet [(k, (⟨0, n⟩ : Slice))] k = .ok ⟨0, n⟩ := by
    unfold dictGet
    rw [lookup_cons_self]
  have hw : ∀ e, Real.sqrt (l2Loss.weight e) = 1 := fun e => by
    show Real.sqrt 1 = 1
    exact Real.sqrt_one
  have hm : ∀ (l : List ℝ), l.map ((1 : ℝ) * ·) = l := fun l => by simp
  have hc : ∀ P : Prob ℕ S, P.constKeys = [] → ([k].map fun a => !(P.constKeys.contains a)) = [true] := fun P hP => by
    rw [hP]; rfl
  unfold Prob.linearize
  show (asmLoop _ _ 0 [(r1, l2Loss), (r2, l2Loss)] _ >>= _) = _
  have step : ∀ (i : ℕ) (r : Residual ℕ S) (rest) (a : Asm) (s : Slice) (m : ℕ) (e : Vec m) (J : Mat m n), r.keys = [k] →
      r.error [x] = .ok (List.ofFn e) → r.jacobians [x] [true] = .ok [some (DMat.ofMat J)] →
      (twoProb cfg k x0 r1 r2 p q n).resSlices[i]? = some s → s.stop = s.start + m → s.stop ≤ p + q →
      a.H.rows = p + q → a.H.cols = n →
      asmLoop (twoProb cfg k x0 r1 r2 p q n) [(k, x)] i ((r, l2Loss) :: rest) a =
        asmLoop (twoProb cfg k x0 r1 r2 p q n) [(k, x)] (i + 1) rest
          ⟨fun j => if h : s.start ≤ j ∧ j < s.start + m then e ⟨j - s.start, by omega⟩ else a.e j,
            ⟨a.H.rows, a.H.cols, fun i j => if h : s.start ≤ i ∧ i < s.start + m ∧ j < n then
              J ⟨i - s.start, by omega⟩ ⟨j, h.2.2⟩ else a.H.get i j⟩,
            a.cost + l2Loss.loss (listNorm (List.ofFn e))⟩ := by
    intro i r rest a s m e J hk he hj hs hs1 hs2 ha1 ha2
    obtain ⟨s1, s2⟩ := s
    simp only at hs1 hs2 ⊢
    subst hs1
    conv_lhs => unfold asmLoop
    rw [hk, hl, ok_bindE, he, ok_bindE, hc _ rfl, hj, ok_bindE]
    simp only [hw, hm]
    rw [pyGet_iff.2 hs, ok_bindE]
    rw [show (twoProb cfg k x0 r1 r2 p q n).sizeErr = p + q from rfl, setSeg_full a.e e rfl hs2, ok_bindE]
    have hp : placeJacs (twoProb cfg k x0 r1 r2 p q n).varSlices ⟨s1, s1 + m⟩ 1 [k] [some (DMat.ofMat J)] a.H =
        .ok ⟨a.H.rows, a.H.cols, fun i j => if h : s1 ≤ i ∧ i < s1 + m ∧ j < n then
              J ⟨i - s1, by omega⟩ ⟨j, h.2.2⟩ else a.H.get i j⟩ := by
      unfold placeJacs
      rw [show (twoProb cfg k x0 r1 r2 p q n).varSlices = [(k, ⟨0, n⟩)] from rfl, hv, ok_bindE, scale_one,
        setBlock_full J rfl (by rw [ha1]; exact hs2) ha2, ok_bindE]
      rfl
    rw [hp, ok_bindE]
  rw [step 0 r1 _ _ ⟨0, p⟩ p e1 J1 k1 h1 j1 rfl (by simp) (by simp) rfl rfl,
    step 1 r2 _ _ ⟨p, p + q⟩ q e2 J2 k2 h2 j2 rfl rfl (le_refl _) rfl rfl]
  unfold asmLoop
  rw [ok_bindE]
  show Except.ok _ = Except.ok _
  congr 1
  unfold twoLin
  congr 1
  · funext i
    simp only
    by_cases hi : i.1 < p
    · rw [dif_neg (by omega), dif_pos ⟨Nat.zero_le _, by omega⟩, append_lt _ _ _ hi]
      rfl
    · rw [dif_pos ⟨by omega, i.2⟩, append_ge _ _ _ hi]
  · funext i j
    simp only
    unfold stackRows
    by_cases hi : i.1 < p
    · rw [dif_neg (by omega), dif_pos ⟨Nat.zero_le _, by omega, j.2⟩, append_lt _ _ _ hi]
      rfl
    · rw [dif_pos ⟨by omega, i.2, j.2⟩, append_ge _ _ _ hi]
      rfl

theorem two_A {p q n : ℕ} (e1 : Vec p) (e2 : Vec q) (J1 : Mat p n) (J2 : Mat q n) :
    (twoLin e1 e2 J1 J2).A = J1ᵀ * J1 + J2ᵀ * J2 := by
  funext a b
  show ∑ i : Fin (p + q), stackRows J1 J2 i a * stackRows J1 J2 i b = (∑ i, J1 i a * J1 i b) + ∑ i, J2 i a * J2 i b
  rw [Fin.sum_univ_add]
  unfold stackRows
  simp only [Fin.append_left, Fin.append_right]

theorem two_b {p q n : ℕ} (e1 : Vec p) (e2 : Vec q) (J1 : Mat p n) (J2 : Mat q n) :
    (twoLin e1 e2 J1 J2).b = J1ᵀ *ᵥ e1 + J2ᵀ *ᵥ e2 := by
  funext a
  show ∑ i : Fin (p + q), stackRows J1 J2 i a * Fin.append e1 e2 i = (∑ i, J1 i a * e1 i) + ∑ i, J2 i a * e2 i
  rw [Fin.sum_univ_add]
  unfold stackRows
  simp only [Fin.append_left, Fin.append_right]

theorem two_cost {p q n : ℕ} (e1 : Vec p) (e2 : Vec q) (J1 : Mat p n) (J2 : Mat q n) :
    (twoLin e1 e2 J1 J2).cost = 1 / 2 * (e1 ⬝ᵥ e1) + 1 / 2 * (e2 ⬝ᵥ e2) := by
  show 0 + l2Loss.loss (listNorm (List.ofFn e1)) + l2Loss.loss (listNorm (List.ofFn e2)) = _
  rw [l2_ofFn, l2_ofFn, zero_add]
/-! ### The problem of one prior and one measurement -/

/-- The batch problem a user writes for one measurement: a variable with a prior, and the measurement. -/
noncomputable def mapProblem (o : StateOps V n) (cfg : ProbCfg) (k : ℕ) (x : SWC V n) (y : Meas V n) :
    Except Err (Prob ℕ (St V)) := do
  let r ← PriorRes.new x.state.value x.cov
  return (((Prob.new cfg).addVariable k x.state).addResidual (toResidual [k] (r.evaluate o)) l2Loss).addResidual
    (toResidual [k] (measurementResidual y)) l2Loss

/-- What the state class owes the two algorithms: the same operations in both, the zero step does nothing, and the
Jacobian of the difference to the prior mean is inverse to the Jacobian of the sum. -/
structure MapLaws (f : IekfEnv V U n) (o : StateOps V n) (v0 : V) : Prop where
  plus : o.plus = f.plus
  minus : o.minus = f.minus
  zero : ∀ v, f.plus v 0 = v
  jac : ∀ v, f.plusJac v (f.minus v v0) * o.minusJac v v0 = 1

/-- A measurement that can be predicted everywhere, with a proper covariance. -/
structure SoftMeas (y : Meas V n) : Prop where
  total : ∀ s, (y.model.evaluate s).isSome
  pd : ∀ s, (y.model.covariance s).PosDef

/-- The prediction. -/
noncomputable def predY (y : Meas V n) (s : St V) : Vec y.m := (y.model.evaluate s).getD 0

/-- The Gauss-Newton step. -/
noncomputable def gnNext (f : IekfEnv V U n) (x : SWC V n) (y : Meas V n) (s : St V) : St V :=
  f.plusSt s (gnDir f x y s (predY y s))

/-- Information at an operating point. -/
noncomputable def mapInfo (o : StateOps V n) (x : SWC V n) (y : Meas V n) (s : St V) : Mat n n :=
  (o.minusJac s.value x.state.value)ᵀ * x.cov⁻¹ * o.minusJac s.value x.state.value +
    (y.model.jacobian s)ᵀ * (y.model.covariance s)⁻¹ * y.model.jacobian s

theorem predY_some {y : Meas V n} (hy : SoftMeas y) (s : St V) : y.model.evaluate s = some (predY y s) := by
  obtain ⟨v, hv⟩ := Option.isSome_iff_exists.1 (hy.total s)
  unfold predY
  rw [hv]
  rfl

/-- The two whitened residuals, linearized at `s`. -/
theorem map_started {o : StateOps V n} {cfg : ProbCfg} {k : ℕ} {x : SWC V n} {y : Meas V n} (hx : x.cov.PosDef)
    (hy : SoftMeas y) : ∃ (P : Prob ℕ (St V)) (r1 r2 : Residual ℕ (St V)), mapProblem o cfg k x y = .ok P ∧
      P.cfg = cfg ∧ P.started o.varOps = .ok (twoProb cfg k x.state r1 r2 n y.m n) ∧
      ∀ s : St V, ∃ L, (twoProb cfg k x.state r1 r2 n y.m n).linearize [(k, s)] = .ok L ∧
        ∃ (e1 : Vec n) (e2 : Vec y.m) (J1 : Mat n n) (J2 : Mat y.m n), L = twoLin e1 e2 J1 J2 ∧
          J1ᵀ * J1 + J2ᵀ * J2 = mapInfo o x y s ∧
          J1ᵀ *ᵥ e1 + J2ᵀ *ᵥ e2 = (o.minusJac s.value x.state.value)ᵀ *ᵥ (x.cov⁻¹ *ᵥ o.minus s.value x.state.value) -
            (y.model.jacobian s)ᵀ *ᵥ ((y.model.covariance s)⁻¹ *ᵥ fun i => y.value i - predY y s i) := by
  obtain ⟨L1, h1, h1'⟩ := sqrtInformation_pd hx
  have hprior : PriorRes.new x.state.value x.cov = .ok ⟨x.state.value, L1⟩ := by
    unfold PriorRes.new
    rw [h1]
    rfl
  set r1 : Residual ℕ (St V) := toResidual [k] ((⟨x.state.value, L1⟩ : PriorRes V n).evaluate o) with hr1
  set r2 : Residual ℕ (St V) := toResidual [k] (measurementResidual y) with hr2
  have e1 : ∀ s, r1.error [s] = .ok (List.ofFn (L1ᵀ *ᵥ o.minus s.value x.state.value)) := fun s => rfl
  have j1 : ∀ s, r1.jacobians [s] [true] = .ok [some (DMat.ofMat (L1ᵀ * o.minusJac s.value x.state.value))] := fun s => rfl
  have e2 : ∀ s, ∃ L2 : Mat y.m y.m, L2 * L2ᵀ = (y.model.covariance s)⁻¹ ∧
      r2.error [s] = .ok (List.ofFn (L2ᵀ *ᵥ fun i => y.value i - predY y s i)) ∧
      r2.jacobians [s] [true] = .ok [some (DMat.ofMat (-L2ᵀ * y.model.jacobian s))] := by
    intro s
    obtain ⟨L2, h2, h2'⟩ := sqrtInformation_pd (hy.pd s)
    refine ⟨L2, h2', ?_, ?_⟩
    · show Except.map _ (measurementResidual y [s] none) = _
      unfold measurementResidual
      rw [show pyGet [s] 0 = .ok s from rfl, ok_bindE]
      simp only [predY_some hy s]
      rw [h2]
      rfl
    · show Except.map _ (measurementResidual y [s] (some [true])) = _
      unfold measurementResidual
      rw [show pyGet [s] 0 = .ok s from rfl, ok_bindE]
      simp only [predY_some hy s]
      rw [h2]
      rfl
  refine ⟨(((Prob.new cfg).addVariable k x.state).addResidual r1 l2Loss).addResidual r2 l2Loss, r1, r2, ?_, rfl, ?_, ?_⟩
  · unfold mapProblem
    rw [hprior]
    rfl
  · obtain ⟨L2, -, h2, -⟩ := e2 x.state
    unfold Prob.started Prob.computeSize
    have hl : lookupAll [(k, x.state)] [k] = .ok [x.state] := by
      unfold lookupAll dictGet
      rw [lookup_cons_self]
      rfl
    have hrow : rowSlices [(k, x.state)] [r1, r2] 0 = .ok ([⟨0, n⟩, ⟨n, n + y.m⟩], n + y.m) := by
      unfold rowSlices
      rw [show r1.keys = [k] from rfl, hl, ok_bindE, e1, ok_bindE]
      unfold rowSlices
      rw [show r2.keys = [k] from rfl, hl, ok_bindE, h2, ok_bindE]
      unfold rowSlices
      rw [ok_bindE]
      simp only [List.length_ofFn, zero_add]
      rfl
    show (rowSlices [(k, x.state)] [r1, r2] 0 >>= _) = _
    rw [hrow, ok_bindE]
    have hcol : colSlices o.varOps ([] : List ℕ) [(k, x.state)] 0 [] = ([(k, ⟨0, n⟩)], n) := by
      unfold colSlices
      rw [if_neg (by simp)]
      unfold colSlices
      simp only [zero_add]
      rfl
    show Except.ok _ = Except.ok _
    congr 1
    show Prob.mk _ _ _ _ _ _ (colSlices o.varOps ([] : List ℕ) [(k, x.state)] 0 []).1 _ _
      (colSlices o.varOps ([] : List ℕ) [(k, x.state)] 0 []).2 _ _ _ = _
    rw [hcol]
    rfl
  · intro s
    obtain ⟨L2, h2', h2, h2j⟩ := e2 s
    refine ⟨_, two_linearize rfl rfl (e1 s) h2 (j1 s) h2j, _, _, _, _, rfl, ?_, ?_⟩
    · unfold mapInfo
      rw [← h1', ← h2']
      simp only [transpose_mul, transpose_neg, transpose_transpose, Matrix.mul_assoc, Matrix.neg_mul, Matrix.mul_neg, neg_neg]
    · rw [← h1', ← h2']
      simp only [transpose_mul, transpose_neg, transpose_transpose, mulVec_mulVec, Matrix.mul_assoc, Matrix.neg_mul, Matrix.mul_neg,
        neg_mulVec, sub_eq_add_neg]


/-! ### The two directions agree -/

section Dir

variable {f : IekfEnv V U n} {o : StateOps V n} {x : SWC V n} {y : Meas V n}

/-- The prior covariance carried to the operating point. -/
noncomputable def carried (f : IekfEnv V U n) (x : SWC V n) (s : St V) : Mat n n :=
  f.plusJac s.value (f.minus s.value x.state.value) * x.cov * (f.plusJac s.value (f.minus s.value x.state.value))ᵀ

theorem carried_inv (hl : MapLaws f o x.state.value) (hx : x.cov.PosDef) (s : St V) :
    (carried f x s).PosDef ∧ (carried f x s)⁻¹ =
      (o.minusJac s.value x.state.value)ᵀ * x.cov⁻¹ * o.minusJac s.value x.state.value := by
  have hj := hl.jac s.value
  have hj' := mul_eq_one_comm.1 hj
  set J := f.plusJac s.value (f.minus s.value x.state.value) with hJ
  set M := o.minusJac s.value x.state.value with hM
  have e : carried f x s = J * x.cov * Jᵀ := rfl
  have hi : (carried f x s)⁻¹ = Mᵀ * x.cov⁻¹ * M := by
    refine inv_eq_left_inv ?_
    rw [e, show Mᵀ * x.cov⁻¹ * M * (J * x.cov * Jᵀ) = Mᵀ * (x.cov⁻¹ * (M * J) * x.cov) * Jᵀ by
      simp only [Matrix.mul_assoc], hj', Matrix.mul_one, nonsing_inv_mul _ (unit_of_det (pd_det hx)), Matrix.mul_one,
      ← transpose_mul, hj, transpose_one]
  refine ⟨?_, hi⟩
  have hs : (carried f x s).PosSemidef := psd_conj hx.posSemidef J
  refine psd_unit_pd hs (IsUnit.ne_zero ?_)
  rw [e, det_mul, det_mul, det_transpose]
  have h1 : IsUnit J.det := by
    have := congrArg Matrix.det hj
    rw [det_mul, det_one] at this
    exact IsUnit.of_mul_eq_one _ this
  exact (h1.mul (isUnit_iff_ne_zero.2 (pd_det hx))).mul h1

theorem map_info (hl : MapLaws f o x.state.value) (hx : x.cov.PosDef) (hy : SoftMeas y) (s : St V) :
    (mapInfo o x y s).PosDef ∧
      (mapInfo o x y s)⁻¹ = kCov (carried f x s) (y.model.jacobian s) (y.model.covariance s) := by
  obtain ⟨h1, h2⟩ := carried_inv hl hx s
  have e : mapInfo o x y s = (carried f x s)⁻¹ +
      (y.model.jacobian s)ᵀ * (y.model.covariance s)⁻¹ * y.model.jacobian s := by
    rw [h2]; rfl
  rw [e]
  exact ⟨info_pd h1 _ (hy.pd s), (kCov_info h1 _ (hy.pd s)).symm⟩

theorem gnS_eq (hl : MapLaws f o x.state.value) (hx : x.cov.PosDef) (hy : SoftMeas y) (s : St V) :
    gnS f x y s = y.model.jacobian s * carried f x s * (y.model.jacobian s)ᵀ + y.model.covariance s ∧
    (gnS f x y s).det ≠ 0 := by
  obtain ⟨h1, -⟩ := carried_inv hl hx s
  have hpd := innov_pd h1.posSemidef (y.model.jacobian s) (hy.pd s)
  have e : gnS f x y s = y.model.jacobian s * carried f x s * (y.model.jacobian s)ᵀ + y.model.covariance s :=
    symmetrize_eq (psd_symm hpd.posSemidef)
  exact ⟨e, by rw [e]; exact pd_det hpd⟩

theorem map_dir (hl : MapLaws f o x.state.value) (hx : x.cov.PosDef) (hy : SoftMeas y) (s : St V) :
    (mapInfo o x y s)⁻¹ *ᵥ (-((o.minusJac s.value x.state.value)ᵀ *ᵥ (x.cov⁻¹ *ᵥ o.minus s.value x.state.value) -
      (y.model.jacobian s)ᵀ *ᵥ ((y.model.covariance s)⁻¹ *ᵥ fun i => y.value i - predY y s i))) =
    gnDir f x y s (predY y s) := by
  obtain ⟨h1, h2⟩ := carried_inv hl hx s
  have hS := pd_det (innov_pd h1.posSemidef (y.model.jacobian s) (hy.pd s))
  have hK := kCov_gain (carried f x s) (y.model.jacobian s) (y.model.covariance s) hS (pd_det (hy.pd s))
  have hd : gnDir f x y s (predY y s) =
      -(f.plusJac s.value (f.minus s.value x.state.value) *ᵥ f.minus s.value x.state.value) +
        (carried f x s * (y.model.jacobian s)ᵀ * (gnS f x y s)⁻¹) *ᵥ ((fun i => y.value i - predY y s i) +
          y.model.jacobian s *ᵥ (f.plusJac s.value (f.minus s.value x.state.value) *ᵥ f.minus s.value x.state.value)) := rfl
  rw [hd, (gnS_eq hl hx hy s).1, (map_info hl hx hy s).2, hl.minus]
  rw [show carried f x s * (y.model.jacobian s)ᵀ *
    (y.model.jacobian s * carried f x s * (y.model.jacobian s)ᵀ + y.model.covariance s)⁻¹ =
      kGain (carried f x s) (y.model.jacobian s) (y.model.covariance s) from rfl]
  have hj := mul_eq_one_comm.1 (hl.jac s.value)
  set J := f.plusJac s.value (f.minus s.value x.state.value) with hJ
  set M := o.minusJac s.value x.state.value with hM
  set e := f.minus s.value x.state.value with he
  set G := y.model.jacobian s with hG
  set R := y.model.covariance s with hR
  set C := carried f x s with hC
  set z : Vec y.m := fun i => y.value i - predY y s i with hz
  have t1 : Mᵀ *ᵥ (x.cov⁻¹ *ᵥ e) = C⁻¹ *ᵥ (J *ᵥ e) := by
    rw [h2, mulVec_mulVec, mulVec_mulVec, show Mᵀ * x.cov⁻¹ * M * J = Mᵀ * x.cov⁻¹ * (M * J) by
      simp only [Matrix.mul_assoc], hj, Matrix.mul_one]
  have t2 : kCov C G R *ᵥ (Gᵀ *ᵥ (R⁻¹ *ᵥ z)) = kGain C G R *ᵥ z := by
    rw [mulVec_mulVec, mulVec_mulVec, hK]
  have t3 : kCov C G R *ᵥ (C⁻¹ *ᵥ (J *ᵥ e)) = J *ᵥ e - kGain C G R *ᵥ (G *ᵥ (J *ᵥ e)) := by
    rw [mulVec_mulVec]
    have : kCov C G R * C⁻¹ = 1 - kGain C G R * G := by
      unfold kCov
      rw [Matrix.mul_assoc, mul_nonsing_inv _ (unit_of_det (pd_det h1)), Matrix.mul_one]
    rw [this, sub_mulVec, one_mulVec, mulVec_mulVec (J *ᵥ e)]
  rw [t1, mulVec_neg, mulVec_sub, t2, t3, mulVec_add]
  abel

end Dir


/-! ### The loops -/

section Loops

variable {f : IekfEnv V U n} {o : StateOps V n} {x : SWC V n} {y : Meas V n}

theorem gnLoop_iter (hl : MapLaws f o x.state.value) (hx : x.cov.PosDef) (hy : SoftMeas y) (hls : f.lineSearch = false)
    (fuel : ℕ) : ∀ (N : ℕ) (s : St V) (tr : List (St V)), ∃ j tr', j ≤ N ∧ (f.stepTol ≤ 0 → j = N) ∧
      f.gnLoop fuel x y false N s tr = .ok (false, (gnNext f x y)^[j] s, tr')
  | 0, s, tr => ⟨0, tr, le_refl _, fun _ => rfl, rfl⟩
  | N + 1, s, tr => by
    have hp := gnPass_noreject f fuel x y s (predY y s) (predY_some hy s) (pd_det hx) (pd_det (hy.pd s)) (gnS_eq hl hx hy s).2
    rw [if_neg (show ¬ (f.lineSearch = true) by simp [hls])] at hp
    by_cases ht : npNorm (gnDir f x y s (predY y s)) < f.stepTol
    · rw [if_pos ht] at hp
      refine ⟨0, tr, Nat.zero_le _, fun h => ?_, ?_⟩
      · have : (0 : ℝ) ≤ npNorm (gnDir f x y s (predY y s)) := Real.sqrt_nonneg _
        linarith
      · unfold IekfEnv.gnLoop
        rw [hp]
        rfl
    · rw [if_neg ht] at hp
      obtain ⟨j, tr', h1, h2, h3⟩ := gnLoop_iter hl hx hy hls fuel N (gnNext f x y s) (gnNext f x y s :: tr)
      refine ⟨j + 1, tr', by omega, fun h => by rw [h2 h], ?_⟩
      unfold IekfEnv.gnLoop
      rw [hp]
      exact h3

/-- What the iterated filter returns: an iterate of the Gauss-Newton step, and the inverse information there. -/
theorem iekf_iter (hl : MapLaws f o x.state.value) (hx : x.cov.PosDef) (hy : SoftMeas y) (hls : f.lineSearch = false)
    (hN : 0 < f.maxIters) (fuel : ℕ) {t : ℝ} (hxt : x.state.stamp = some t) (hyt : y.stamp = some t) :
    ∃ j, j ≤ f.maxIters ∧ (f.stepTol ≤ 0 → j = f.maxIters) ∧ f.correctI fuel x y none none (some false) =
      .ok ⟨(gnNext f x y)^[j] x.state, (mapInfo o x y ((gnNext f x y)^[j] x.state))⁻¹⟩ := by
  have hadv : f.advanceI x y none = .ok x := by
    unfold IekfEnv.advanceI
    simp only [hxt, hyt, sub_self]
    rw [if_neg (by norm_num)]
  obtain ⟨j, tr', h1, h2, h3⟩ := gnLoop_iter hl hx hy hls fuel f.maxIters x.state []
  refine ⟨j, h1, h2, ?_⟩
  set s := (gnNext f x y)^[j] x.state with hs
  have hfin : f.finish x y none s = .ok ⟨s, kCov (carried f x s) (y.model.jacobian s) (y.model.covariance s)⟩ := by
    have hK := solve_ok (A := (gnS f x y s)ᵀ) (by rw [det_transpose]; exact (gnS_eq hl hx hy s).2)
      (carried f x s * (y.model.jacobian s)ᵀ)ᵀ
    have hKT := (gain_eq hK).2
    rw [(gnS_eq hl hx hy s).1] at hKT
    unfold IekfEnv.finish
    show (solve (gnS f x y s)ᵀ (carried f x s * (y.model.jacobian s)ᵀ)ᵀ >>= _) = _
    rw [hK, ok_bindE]
    show Except.ok _ = _
    rw [(gnS_eq hl hx hy s).1, hKT]
    rfl
  obtain ⟨hpd, hinv⟩ := map_info (y := y) hl hx hy s
  have hsym : (kCov (carried f x s) (y.model.jacobian s) (y.model.covariance s))ᵀ =
      kCov (carried f x s) (y.model.jacobian s) (y.model.covariance s) :=
    psd_symm (kCov_psd (carried_inv hl hx s).1.posSemidef _ (hy.pd s))
  unfold IekfEnv.correctI IekfEnv.correctT
  rw [hadv, ok_bindE]
  unfold IekfEnv.fuseI
  rw [if_neg (by omega), show (some false).getD f.rejectOutliers = false from rfl, h3, ok_bindE]
  show Except.map Prod.fst (f.conclude x y none false s >>= _) = _
  unfold IekfEnv.conclude
  rw [if_neg (by simp), hfin, ok_bindE]
  show Except.ok _ = _
  simp only [symmetrize_eq hsym]
  rw [hinv]

/-- The state of the Gauss-Newton loop after `j` steps. -/
structure AtIter (f : IekfEnv V U n) (o : StateOps V n) (P : Prob ℕ (St V)) (k : ℕ) (x : SWC V n) (y : Meas V n) (j : ℕ)
    (st : LoopState ℕ (St V)) : Prop where
  vars : st.vars = [(k, (gnNext f x y)^[j] x.state)]
  lin : P.linearize st.vars = .ok st.lin
  cost : st.costs.headD 0 = st.lin.cost
  start : j = 0 → st.deltaCost = none
  info : 0 < j → st.info = some ⟨n, mapInfo o x y ((gnNext f x y)^[j - 1] x.state)⟩
  dx : 0 < j → st.dx = vecNorm (gnDir f x y ((gnNext f x y)^[j - 1] x.state) (predY y ((gnNext f x y)^[j - 1] x.state)))

/-- A problem whose linearization is that of `mapProblem`. -/
def MapLin (o : StateOps V n) (x : SWC V n) (y : Meas V n) (k : ℕ) (P : Prob ℕ (St V)) : Prop :=
  ∀ s : St V, ∃ L, P.linearize [(k, s)] = .ok L ∧
        ∃ (e1 : Vec n) (e2 : Vec y.m) (J1 : Mat n n) (J2 : Mat y.m n), L = twoLin e1 e2 J1 J2 ∧
          J1ᵀ * J1 + J2ᵀ * J2 = mapInfo o x y s ∧
          J1ᵀ *ᵥ e1 + J2ᵀ *ᵥ e2 = (o.minusJac s.value x.state.value)ᵀ *ᵥ (x.cov⁻¹ *ᵥ o.minus s.value x.state.value) -
            (y.model.jacobian s)ᵀ *ᵥ ((y.model.covariance s)⁻¹ *ᵥ fun i => y.value i - predY y s i)

theorem take_ofFn {m : ℕ} (d : Vec m) : (((List.ofFn d).drop 0).take (m - 0)) = List.ofFn d := by
  rw [List.drop_zero, Nat.sub_zero, List.take_of_length_le (by rw [List.length_ofFn])]

theorem getD_ofFn {m : ℕ} (d : Vec m) (i : Fin m) : (List.ofFn d).getD i 0 = d i := by
  rw [List.getD_eq_getElem?_getD, List.getElem?_ofFn, dif_pos i.2]
  rfl

theorem gn_iter_step (hl : MapLaws f o x.state.value) (hx : x.cov.PosDef) (hy : SoftMeas y) (hn : 0 < n) {k : ℕ}
    {P : Prob ℕ (St V)} (hL : MapLin o x y k P) (hc : P.constKeys = []) (hv : P.varSlices = [(k, ⟨0, n⟩)]) {j : ℕ}
    {st : LoopState ℕ (St V)} (h : AtIter f o P k x y j st)
    (hcv : ¬ isConverged P.cfg st.deltaCost (st.costs.headD 0) st.dx st.gradNorm = true) :
    ∃ st', gnStep o.varOps P st = .ok (st', false) ∧ AtIter f o P k x y (j + 1) st' := by
  obtain ⟨v, lin, costs, dc, gn, dx, info, mu, nu⟩ := st
  obtain ⟨h1, h2, h3, h4, h5, h6⟩ := h
  simp only at h1 h2 h3 h4 h5 h6 hcv
  subst h1
  set s := (gnNext f x y)^[j] x.state with hs
  obtain ⟨L, hL1, e1, e2, J1, J2, rfl, hA, hb⟩ := hL s
  rw [hL1] at h2
  injection h2 with h2
  subst h2
  have hsucc : (gnNext f x y)^[j + 1] x.state = gnNext f x y s := Function.iterate_succ_apply' _ _ _
  have hspA : spsolve (twoLin e1 e2 J1 J2).A (twoLin e1 e2 J1 J2).b = .ok (gnDir f x y s (predY y s)) := by
    have hdet : (J1ᵀ * J1 + J2ᵀ * J2).det ≠ 0 := by
      rw [hA]; exact pd_det (map_info (y := y) hl hx hy s).1
    rw [two_A, two_b]
    show spsolve (J1ᵀ * J1 + J2ᵀ * J2) (J1ᵀ *ᵥ e1 + J2ᵀ *ᵥ e2) = _
    unfold spsolve
    rw [if_neg hdet, hA, hb, map_dir hl hx hy s]
    rfl
  have hcor : correctStates o.varOps P.constKeys P.varSlices (List.ofFn (gnDir f x y s (predY y s))) [(k, s)] =
      .ok [(k, gnNext f x y s)] := by
    unfold correctStates
    rw [hc, if_neg (by simp), hv]
    unfold dictGet
    rw [lookup_cons_self, ok_bindE, take_ofFn]
    have : o.varOps.plus s (List.ofFn (gnDir f x y s (predY y s))) = .ok (gnNext f x y s) := by
      show (if _ then _ else _) = _
      rw [if_pos (by rw [List.length_ofFn])]
      simp only [getD_ofFn]
      rw [hl.plus]
      rfl
    rw [this, ok_bindE]
    rfl
  obtain ⟨L', hL1', e1', e2', J1', J2', rfl, hA', hb'⟩ := hL (gnNext f x y s)
  obtain ⟨g, hg⟩ := gradNorm_ok (L := twoLin e1' e2' J1' J2') hn
  refine ⟨⟨[(k, gnNext f x y s)], twoLin e1' e2' J1' J2', (twoLin e1' e2' J1' J2').cost :: costs,
    deltaCostOf ((twoLin e1' e2' J1' J2').cost :: costs) dc, some g, vecNorm (gnDir f x y s (predY y s)),
    some ⟨n, (twoLin e1 e2 J1 J2).A⟩, mu, nu⟩, ?_, ?_⟩
  · unfold gnStep
    rw [if_neg hcv]
    show (spsolve (twoLin e1 e2 J1 J2).A (twoLin e1 e2 J1 J2).b >>= _) = _
    rw [hspA, ok_bindE]
    show (correctStates o.varOps P.constKeys P.varSlices (List.ofFn (gnDir f x y s (predY y s))) [(k, s)] >>= _) = _
    rw [hcor, ok_bindE, hL1', ok_bindE, hg, ok_bindE]
    rfl
  · refine ⟨by rw [hsucc], hL1', rfl, fun h => by omega, fun _ => ?_, fun _ => ?_⟩
    · show some (⟨n, (twoLin e1 e2 J1 J2).A⟩ : SqMat) = _
      rw [Nat.add_sub_cancel, two_A, hA]
    · rw [Nat.add_sub_cancel]

/-- A zero direction: the iteration stays. -/
theorem iter_stay (hz : ∀ v, f.plus v 0 = v) {s : St V} (h : gnDir f x y s (predY y s) = 0) : ∀ i, (gnNext f x y)^[i] s = s
  | 0 => rfl
  | i + 1 => by
    rw [Function.iterate_succ_apply]
    have : gnNext f x y s = s := by
      unfold gnNext EkfEnv.plusSt
      rw [h, hz]
    rw [this]
    exact iter_stay hz h i

theorem vecNorm_eq_zero {m : ℕ} {d : Vec m} (h : vecNorm d = 0) : d = 0 := by
  unfold vecNorm at h
  have hn : 0 ≤ d ⬝ᵥ d := Finset.sum_nonneg fun i _ => mul_self_nonneg _
  exact dotProduct_self_eq_zero.1 ((Real.sqrt_eq_zero hn).1 h)

theorem gn_iter_loop (hl : MapLaws f o x.state.value) (hx : x.cov.PosDef) (hy : SoftMeas y) (hn : 0 < n) {k : ℕ}
    {P : Prob ℕ (St V)} (hL : MapLin o x y k P) (hc : P.constKeys = []) (hv : P.varSlices = [(k, ⟨0, n⟩)]) :
    ∀ (N j : ℕ) (st : LoopState ℕ (St V)), AtIter f o P k x y j st → ∃ st' j', iterLoop (gnStep o.varOps P) N st = .ok st' ∧
      AtIter f o P k x y j' st' ∧ j ≤ j' ∧ j' ≤ j + N ∧ (j = 0 → 0 < N → 0 < j') ∧
      (P.cfg.stepTol = none → P.cfg.ftol = none → P.cfg.gradTol = none →
        (gnNext f x y)^[j'] x.state = (gnNext f x y)^[j + N] x.state)
  | 0, j, st, h => ⟨st, j, rfl, h, le_refl _, le_refl _, fun _ h => absurd h (lt_irrefl _), fun _ _ _ => rfl⟩
  | N + 1, j, st, h => by
    by_cases hcv : isConverged P.cfg st.deltaCost (st.costs.headD 0) st.dx st.gradNorm = true
    · have hj : 0 < j := by
        rcases Nat.eq_zero_or_pos j with h0 | h0
        · rw [h.start h0] at hcv
          simp [isConverged] at hcv
        · exact h0
      refine ⟨st, j, ?_, h, le_refl _, by omega, fun h0 => by omega, ?_⟩
      · unfold iterLoop gnStep
        rw [if_pos hcv]
        rfl
      · intro t1 t2 t3
        have hstop : gnDir f x y ((gnNext f x y)^[j] x.state) (predY y ((gnNext f x y)^[j] x.state)) = 0 := by
          have hor : st.costs.headD 0 = 0 ∨ st.dx = 0 := by
            unfold isConverged at hcv
            cases hdc : st.deltaCost with
            | none => rw [hdc] at hcv; cases hcv
            | some d =>
              rw [hdc, t1, t2, t3] at hcv
              simpa using hcv
          rcases hor with h0 | h0
          · rw [h.cost] at h0
            have h2 := h.lin
            rw [h.vars] at h2
            obtain ⟨L, hL1, e1, e2, J1, J2, hLe, hA, hb⟩ := hL ((gnNext f x y)^[j] x.state)
            rw [hL1] at h2
            injection h2 with h2
            rw [← h2, hLe, two_cost] at h0
            have q1 : 0 ≤ e1 ⬝ᵥ e1 := Finset.sum_nonneg fun i _ => mul_self_nonneg _
            have q2 : 0 ≤ e2 ⬝ᵥ e2 := Finset.sum_nonneg fun i _ => mul_self_nonneg _
            have z1 : e1 = 0 := dotProduct_self_eq_zero.1 (by linarith)
            have z2 : e2 = 0 := dotProduct_self_eq_zero.1 (by linarith)
            rw [z1, z2, mulVec_zero, mulVec_zero, add_zero] at hb
            rw [← map_dir hl hx hy, ← hb, neg_zero, mulVec_zero]
          · rw [h.dx hj] at h0
            have h0 := vecNorm_eq_zero h0
            have e : (gnNext f x y)^[j] x.state = (gnNext f x y)^[j - 1] x.state := by
              conv_lhs => rw [show j = (j - 1) + 1 by omega]
              rw [Function.iterate_succ_apply']
              exact iter_stay hl.zero h0 1
            rw [e]
            exact h0
        rw [Nat.add_comm, Function.iterate_add_apply, iter_stay hl.zero hstop]
    · obtain ⟨st1, h1, h2⟩ := gn_iter_step hl hx hy hn hL hc hv h hcv
      obtain ⟨st', j', h3, h4, h5, h6, h7, h8⟩ := gn_iter_loop hl hx hy hn hL hc hv N (j + 1) st1 h2
      refine ⟨st', j', ?_, h4, by omega, by omega, fun _ _ => by omega, ?_⟩
      · unfold iterLoop
        rw [h1]
        exact h3
      · intro t1 t2 t3
        rw [h8 t1 t2 t3, show j + 1 + N = j + (N + 1) by omega]

end Loops


/-! ### The theorems -/

section Main

/-- The iterated filter with exactly `j` passes: no step tolerance, no line search. -/
def passes (f : IekfEnv V U n) (j : ℕ) : IekfEnv V U n := { f with maxIters := j, stepTol := 0, lineSearch := false }

theorem MapLaws.passes {f : IekfEnv V U n} {o : StateOps V n} {v0 : V} (h : MapLaws f o v0) (j : ℕ) :
    MapLaws (passes f j) o v0 := ⟨h.plus, h.minus, h.zero, h.jac⟩

variable {f : IekfEnv V U n} {o : StateOps V n} {x : SWC V n} {y : Meas V n} {k : ℕ} {cfg : ProbCfg} {t : ℝ}

theorem passes_iter (hl : MapLaws f o x.state.value) (hx : x.cov.PosDef) (hy : SoftMeas y) (fuel : ℕ)
    (hxt : x.state.stamp = some t) (hyt : y.stamp = some t) {j : ℕ} (hj : 0 < j) :
    (passes f j).correctI fuel x y none none (some false) =
      .ok ⟨(gnNext f x y)^[j] x.state, (mapInfo o x y ((gnNext f x y)^[j] x.state))⁻¹⟩ := by
  obtain ⟨i, h1, h2, h3⟩ := iekf_iter (f := passes f j) (hl.passes j) hx hy rfl hj fuel hxt hyt
  have hi : i = j := h2 (le_refl _)
  subst hi
  exact h3

/-- What Gauss-Newton does on the problem of one prior and one measurement. -/
theorem map_gn (hl : MapLaws f o x.state.value) (hx : x.cov.PosDef) (hy : SoftMeas y) (hn : 0 < n)
    (hs : cfg.solver = "GN") (hit : 0 < cfg.maxIters) : ∃ (P P' : Prob ℕ (St V)) (j : ℕ), mapProblem o cfg k x y = .ok P ∧
      P.solve o.varOps = .ok P' ∧ 1 ≤ j ∧ j ≤ cfg.maxIters ∧ P'.vars = [(k, (gnNext f x y)^[j] x.state)] ∧
      (cfg.stepTol = none → cfg.ftol = none → cfg.gradTol = none →
        (gnNext f x y)^[j] x.state = (gnNext f x y)^[cfg.maxIters] x.state) ∧
      ∃ B P'', P'.getCovarianceBlock k k = .ok (some B, P'') ∧
        Holds B (mapInfo o x y ((gnNext f x y)^[j - 1] x.state))⁻¹ := by
  obtain ⟨P, r1, r2, h1, h2, h3, h4⟩ := map_started (o := o) (cfg := cfg) (k := k) hx hy
  set Q := twoProb cfg k x.state r1 r2 n y.m n with hQ
  obtain ⟨L, hL, -⟩ := h4 x.state
  have h0 : AtIter f o Q k x y 0 ⟨[(k, x.state)], L, [L.cost], none, none, 10, none, 0, 0⟩ :=
    ⟨rfl, hL, rfl, fun _ => rfl, fun h => absurd h (lt_irrefl _), fun h => absurd h (lt_irrefl _)⟩
  obtain ⟨st, j, i1, i2, i3, i4, i5, i6⟩ := gn_iter_loop hl hx hy hn h4 rfl rfl cfg.maxIters 0 _ h0
  have hj := i5 rfl hit
  refine ⟨P, { Q with
    vars := st.vars, costHistory := (st.lin.cost :: st.costs).reverse,
    info := some ⟨n, mapInfo o x y ((gnNext f x y)^[j - 1] x.state)⟩ }, j, h1, ?_, hj, by omega, i2.vars, ?_, ?_⟩
  · unfold Prob.solve
    show (P.started o.varOps >>= _) = _
    rw [h3, ok_bindE, h2, if_pos hs]
    unfold solveGN
    show (Q.linearize [(k, x.state)] >>= _) = _
    rw [hL, ok_bindE]
    show (iterLoop _ cfg.maxIters ⟨[(k, x.state)], L, [L.cost], none, none, 10, none, 0, 0⟩ >>= _) = _
    rw [i1, ok_bindE, i2.lin, ok_bindE, i2.info hj]
  · intro t1 t2 t3
    have := i6 t1 t2 t3
    rwa [Nat.zero_add] at this
  · have hpd := (map_info (y := y) hl hx hy ((gnNext f x y)^[j - 1] x.state)).1
    have hlk : ([(k, (⟨0, n⟩ : Slice))] : List (ℕ × Slice)).lookup k = some ⟨0, n⟩ := lookup_cons_self _ _ _
    refine ⟨SqMat.block ⟨n, (mapInfo o x y ((gnNext f x y)^[j - 1] x.state))⁻¹⟩ ⟨0, n⟩ ⟨0, n⟩, { Q with
      vars := st.vars, costHistory := (st.lin.cost :: st.costs).reverse,
      info := some ⟨n, mapInfo o x y ((gnNext f x y)^[j - 1] x.state)⟩,
      cov := some ⟨n, (mapInfo o x y ((gnNext f x y)^[j - 1] x.state))⁻¹⟩ }, ?_, ?_⟩
    · unfold Prob.getCovarianceBlock
      have hcov : ({ Q with
          vars := st.vars, costHistory := (st.lin.cost :: st.costs).reverse,
          info := some ⟨n, mapInfo o x y ((gnNext f x y)^[j - 1] x.state)⟩ } : Prob ℕ (St V)).computeCovariance = { Q with
          vars := st.vars, costHistory := (st.lin.cost :: st.costs).reverse,
          info := some ⟨n, mapInfo o x y ((gnNext f x y)^[j - 1] x.state)⟩,
          cov := some ⟨n, (mapInfo o x y ((gnNext f x y)^[j - 1] x.state))⁻¹⟩ } := by
        unfold Prob.computeCovariance
        simp only
        rw [if_neg (pd_det hpd)]
      rw [hcov]
      show (match ([(k, (⟨0, n⟩ : Slice))] : List (ℕ × Slice)).lookup k, ([(k, (⟨0, n⟩ : Slice))] : List (ℕ × Slice)).lookup k with
        | some s1, some s2 => _
        | _, _ => _) = _
      rw [hlk]
      rfl
    · refine ⟨?_, ?_, ?_⟩
      · show Slice.len ⟨0, n⟩ n = n
        unfold Slice.len
        simp
      · show Slice.len ⟨0, n⟩ n = n
        unfold Slice.len
        simp
      · intro a b
        show (if h : min 0 n + a.1 < n ∧ min 0 n + b.1 < n then
          (mapInfo o x y ((gnNext f x y)^[j - 1] x.state))⁻¹ ⟨min 0 n + a.1, h.1⟩ ⟨min 0 n + b.1, h.2⟩ else 0) = _
        simp only [Nat.zero_min, zero_add]
        rw [dif_pos ⟨a.2, b.2⟩]

/-- **C104.** Let a state with covariance and a measurement at the same time be given, and build the batch problem with the
prior residual and the measurement residual. `Problem.solve` by Gauss-Newton with `N` iterations and no tolerances returns
the state that the iterated Kalman filter returns after `N` passes. -/
theorem C104_mean (hl : MapLaws f o x.state.value) (hx : x.cov.PosDef) (hy : SoftMeas y) (hn : 0 < n)
    (hs : cfg.solver = "GN") (hit : 0 < cfg.maxIters) (hst : cfg.stepTol = none) (hft : cfg.ftol = none)
    (hgt : cfg.gradTol = none) (fuel : ℕ) (hxt : x.state.stamp = some t) (hyt : y.stamp = some t) :
    ∃ P P' xi, mapProblem o cfg k x y = .ok P ∧ P.solve o.varOps = .ok P' ∧
      (passes f cfg.maxIters).correctI fuel x y none none (some false) = .ok xi ∧ P'.vars = [(k, xi.state)] := by
  obtain ⟨P, P', j, h1, h2, h3, h4, h5, h6, -⟩ := map_gn (k := k) hl hx hy hn hs hit
  refine ⟨P, P', _, h1, h2, passes_iter hl hx hy fuel hxt hyt hit, ?_⟩
  rw [h5, h6 hst hft hgt]

/-- **C104.** With any tolerances Gauss-Newton stops at the state of the iterated filter after some number `j ≥ 1` of passes;
the covariance block it then reports is the covariance of the filter after one pass less. -/
theorem C104_any_tolerance (hl : MapLaws f o x.state.value) (hx : x.cov.PosDef) (hy : SoftMeas y) (hn : 0 < n)
    (hs : cfg.solver = "GN") (hit : 0 < cfg.maxIters) (fuel : ℕ) (hxt : x.state.stamp = some t) (hyt : y.stamp = some t) :
    ∃ (P P' : Prob ℕ (St V)) (j : ℕ) (xj : SWC V n) (B : DMat) (P'' : Prob ℕ (St V)), mapProblem o cfg k x y = .ok P ∧
      P.solve o.varOps = .ok P' ∧ 1 ≤ j ∧ j ≤ cfg.maxIters ∧
      (passes f j).correctI fuel x y none none (some false) = .ok xj ∧ P'.vars = [(k, xj.state)] ∧
      P'.getCovarianceBlock k k = .ok (some B, P'') ∧
      (2 ≤ j → ∃ xp, (passes f (j - 1)).correctI fuel x y none none (some false) = .ok xp ∧ Holds B xp.cov) := by
  obtain ⟨P, P', j, h1, h2, h3, h4, h5, -, B, P'', h7, h8⟩ := map_gn (k := k) hl hx hy hn hs hit
  refine ⟨P, P', j, _, B, P'', h1, h2, h3, h4, passes_iter hl hx hy fuel hxt hyt h3, h5, h7, fun hj => ?_⟩
  exact ⟨_, passes_iter hl hx hy fuel hxt hyt (by omega), h8⟩

/-- **C104.** One iteration: Gauss-Newton returns mean and covariance of the extended Kalman filter. -/
theorem C104_one_iteration (hl : MapLaws f o x.state.value) (hx : x.cov.PosDef) (hy : SoftMeas y) (hn : 0 < n)
    (hs : cfg.solver = "GN") (hit : cfg.maxIters = 1) (hm : f.minus x.state.value x.state.value = 0)
    (hJ : f.plusJac x.state.value 0 = 1) (hxt : x.state.stamp = some t) (hyt : y.stamp = some t) :
    ∃ P P' xe B P'', mapProblem o cfg k x y = .ok P ∧ P.solve o.varOps = .ok P' ∧
      f.toEkfEnv.correct x y none none (some false) = .ok xe ∧ P'.vars = [(k, xe.state)] ∧
      P'.getCovarianceBlock k k = .ok (some B, P'') ∧ Holds B xe.cov := by
  obtain ⟨P, P', j, h1, h2, h3, h4, h5, -, B, P'', h7, h8⟩ := map_gn (k := k) hl hx hy hn hs (by omega)
  have hj : j = 1 := by omega
  subst hj
  have hc : carried f x x.state = x.cov := by
    unfold carried
    rw [hm, hJ, Matrix.one_mul, transpose_one, Matrix.mul_one]
  have hS : innovCov x y none = y.model.jacobian x.state * x.cov * (y.model.jacobian x.state)ᵀ + y.model.covariance x.state := rfl
  have hpd := innov_pd hx.posSemidef (y.model.jacobian x.state) (hy.pd x.state)
  have hf := fuse_noreject f.toEkfEnv x y none (predY y x.state) (predY_some hy _) (pd_det hpd)
  have hE : f.toEkfEnv.correct x y none none (some false) = .ok (kalmanUpdate f.toEkfEnv x y none (predY y x.state)) := by
    unfold EkfEnv.correct
    rw [C06_no_predict f.toEkfEnv x y none none (some false) t t hxt hyt (by norm_num) (by norm_num)]
    show Except.map Prod.fst (f.toEkfEnv.fuse x y none false) = _
    rw [hf]
    rfl
  refine ⟨P, P', _, B, P'', h1, h2, hE, ?_, h7, ?_⟩
  · rw [h5]
    show [(k, gnNext f x y x.state)] = _
    have hd : gnDir f x y x.state (predY y x.state) = (x.cov * (y.model.jacobian x.state)ᵀ * (innovCov x y none)⁻¹) *ᵥ
        fun i => y.value i - predY y x.state i := by
      have hd : gnDir f x y x.state (predY y x.state) =
          -(f.plusJac x.state.value (f.minus x.state.value x.state.value) *ᵥ f.minus x.state.value x.state.value) +
          (carried f x x.state * (y.model.jacobian x.state)ᵀ * (gnS f x y x.state)⁻¹) *ᵥ
            ((fun i => y.value i - predY y x.state i) + y.model.jacobian x.state *ᵥ
              (f.plusJac x.state.value (f.minus x.state.value x.state.value) *ᵥ f.minus x.state.value x.state.value)) := rfl
      rw [hd, (gnS_eq hl hx hy x.state).1, hc, hm, mulVec_zero, mulVec_zero, neg_zero, zero_add, add_zero]
      rfl
    unfold gnNext
    rw [hd]
    rfl
  · have e : (kalmanUpdate f.toEkfEnv x y none (predY y x.state)).cov =
        symmetrize (kCov x.cov (y.model.jacobian x.state) (y.model.covariance x.state)) := rfl
    rw [e, symmetrize_eq (psd_symm (kCov_psd hx.posSemidef _ (hy.pd _)))]
    have := (map_info (y := y) hl hx hy x.state).2
    rw [hc] at this
    rw [← this]
    exact h8

/-- **C104.** With a step tolerance the iterated filter (no line search) returns its prior mean or the state that
Gauss-Newton reaches in some number of iterations, at most `max_iters`. -/
theorem C104_filter_tolerance (hl : MapLaws f o x.state.value) (hx : x.cov.PosDef) (hy : SoftMeas y) (hn : 0 < n)
    (hls : f.lineSearch = false) (hit : 0 < f.maxIters) (fuel : ℕ) (hxt : x.state.stamp = some t) (hyt : y.stamp = some t) :
    ∃ xi, f.correctI fuel x y none none (some false) = .ok xi ∧ (xi.state = x.state ∨ ∃ j P P', 1 ≤ j ∧ j ≤ f.maxIters ∧
      mapProblem o ⟨"GN", j, none, none, none, 0⟩ k x y = .ok P ∧ P.solve o.varOps = .ok P' ∧
      P'.vars = [(k, xi.state)]) := by
  obtain ⟨j, h1, h2, h3⟩ := iekf_iter hl hx hy hls hit fuel hxt hyt
  refine ⟨_, h3, ?_⟩
  rcases Nat.eq_zero_or_pos j with rfl | hj
  · exact Or.inl rfl
  · right
    obtain ⟨P, P', xi, a1, a2, a3, a4⟩ := C104_mean (k := k) (cfg := ⟨"GN", j, none, none, none, 0⟩) hl hx hy hn rfl hj rfl rfl
      rfl fuel hxt hyt
    refine ⟨j, P, P', hj, h1, a1, a2, ?_⟩
    rw [a4, Except.ok.inj (a3.symm.trans (passes_iter hl hx hy fuel hxt hyt hj))]

/-- The gradient of half the squared prior error plus half the squared whitened innovation, in the coordinates of `plus`. -/
noncomputable def mapGradient (o : StateOps V n) (x : SWC V n) (y : Meas V n) (s : St V) : Vec n :=
  (o.minusJac s.value x.state.value)ᵀ *ᵥ (x.cov⁻¹ *ᵥ o.minus s.value x.state.value) -
    (y.model.jacobian s)ᵀ *ᵥ ((y.model.covariance s)⁻¹ *ᵥ fun i => y.value i - predY y s i)

theorem dir_zero_iff (hl : MapLaws f o x.state.value) (hx : x.cov.PosDef) (hy : SoftMeas y) (s : St V) :
    gnDir f x y s (predY y s) = 0 ↔ mapGradient o x y s = 0 := by
  have h := map_dir hl hx hy s
  have hpd := (map_info (y := y) hl hx hy s).1
  change (mapInfo o x y s)⁻¹ *ᵥ (-mapGradient o x y s) = _ at h
  constructor
  · intro h0
    rw [h0] at h
    have := congrArg (fun v => mapInfo o x y s *ᵥ v) h
    simp only [mulVec_mulVec, mul_nonsing_inv _ (unit_of_det (pd_det hpd)), one_mulVec, mulVec_zero] at this
    exact neg_eq_zero.1 this
  · intro h0
    rw [← h, h0, neg_zero, mulVec_zero]

/-- **C104.** Once the passes have reached a point where the gradient of the cost vanishes, further passes change neither
mean nor covariance; and they stop changing the mean only there. -/
theorem C104_stationary (hl : MapLaws f o x.state.value) (hx : x.cov.PosDef) (hy : SoftMeas y) (fuel : ℕ)
    (hxt : x.state.stamp = some t) (hyt : y.stamp = some t) {j : ℕ} (hj : 0 < j) {xj : SWC V n}
    (h : (passes f j).correctI fuel x y none none (some false) = .ok xj) :
    (mapGradient o x y xj.state = 0 → ∀ i ≥ j, (passes f i).correctI fuel x y none none (some false) = .ok xj) ∧
    ((∀ v d, f.plus v d = v → d = 0) → ∀ x1, (passes f (j + 1)).correctI fuel x y none none (some false) = .ok x1 →
      x1.state = xj.state → mapGradient o x y xj.state = 0) := by
  rw [passes_iter hl hx hy fuel hxt hyt hj] at h
  injection h with h
  subst h
  refine ⟨fun hg i hi => ?_, fun hinj x1 h1 he => ?_⟩
  · obtain ⟨d, rfl⟩ := Nat.exists_eq_add_of_le hi
    rw [passes_iter hl hx hy fuel hxt hyt (by omega), Nat.add_comm, Function.iterate_add_apply,
      iter_stay hl.zero ((dir_zero_iff hl hx hy _).2 hg)]
  · rw [passes_iter hl hx hy fuel hxt hyt (by omega)] at h1
    injection h1 with h1
    subst h1
    simp only [Function.iterate_succ_apply'] at he
    refine (dir_zero_iff hl hx hy _).1 (hinj ((gnNext f x y)^[j] x.state).value _ ?_)
    exact congrArg St.value he

end Main

/-! Non-vacuity: a scalar state, measured through its square. -/

/-- `y = x ^ 2 + v`. -/
noncomputable def squareMeas (v t : ℝ) : Meas (Vec 1) 1 :=
  ⟨1, ![v], some t, ⟨fun s => some ![s.value 0 ^ 2], fun s => ![![2 * s.value 0]], fun _ => (1 : Mat 1 1)⟩⟩

theorem vec_mapLaws (proc : ProcModel (Vec n) U n) (rej : Bool) (chi : ℕ → ℝ) (tol : ℝ) (iters : ℕ) (ls : Bool) (v0 : Vec n) :
    MapLaws (vecIekf proc rej chi tol iters ls) (vecStateOps n) v0 :=
  ⟨rfl, rfl, fun v => add_zero v, fun v => Matrix.mul_one 1⟩

theorem square_soft (v t : ℝ) : SoftMeas (squareMeas v t) :=
  ⟨fun s => rfl, fun s => Matrix.PosDef.one⟩

/-- Ten passes and ten iterations on the square measurement agree; the first step is not zero. -/
example (proc : ProcModel (Vec 1) U 1) (chi : ℕ → ℝ) :
    let f := vecIekf proc false chi 0 10 false
    let x : SWC (Vec 1) 1 := ⟨⟨![1], some 0⟩, 1⟩
    (∃ P P' xi, mapProblem (vecStateOps 1) ⟨"GN", 10, none, none, none, 0⟩ 0 x (squareMeas 3 0) = .ok P ∧
      P.solve (vecStateOps 1).varOps = .ok P' ∧
      (passes f 10).correctI 1 x (squareMeas 3 0) none none (some false) = .ok xi ∧ P'.vars = [(0, xi.state)]) ∧
    mapGradient (vecStateOps 1) x (squareMeas 3 0) x.state ≠ 0 := by
  intro f x
  refine ⟨C104_mean (cfg := ⟨"GN", 10, none, none, none, 0⟩) (f := f) (vec_mapLaws _ _ _ _ _ _ _) Matrix.PosDef.one
    (square_soft 3 0) (by norm_num) rfl (by norm_num) rfl rfl rfl 1 rfl rfl, ?_⟩
  intro h
  have h0 := congrFun h 0
  have e : mapGradient (vecStateOps 1) x (squareMeas 3 0) x.state 0 = -4 := by
    unfold mapGradient predY
    simp [x, squareMeas, vecStateOps, Matrix.mulVec, dotProduct]
    change ∑ a : Fin 1, (![![2]] : Mat 1 1)ᵀ 0 a * ∑ b : Fin 1, (1 : Mat 1 1)⁻¹ a b * (3 - (![1] : Vec 1) b) = 4
    simp
    norm_num
    show (2 : ℝ) * 2 = 4
    norm_num
  rw [e] at h0
  norm_num at h0

end Verif
