import Verif.Props.Ekf
import Verif.Props.MeasurementsInv
import Verif.Props.Honest
import Verif.Model.Iekf
import Verif.Model.Sigma
import Verif.Model.RunFilters
import Verif.Lemmas.Imm
import Verif.Lemmas.Sigma

/-!
C133: the units and the frame in which measurements are expressed do not matter to the Kalman filters.
-/

set_option linter.unusedSectionVars false
set_option linter.unusedVariables false
set_option linter.unusedSimpArgs false

namespace Verif

open Matrix

variable {V U : Type} {n : ℕ}

/-! ### Specification -/

/-- The measurement `y`, expressed in other units: its values, predictions and Jacobians are multiplied by `M`, and its noise covariance
is changed accordingly. -/
def inUnits (y : Meas V n) (M : Mat y.m y.m) : Meas V n where
  m := y.m
  value := M *ᵥ y.value
  stamp := y.stamp
  model :=
    { evaluate := fun x => (y.model.evaluate x).map (M *ᵥ ·)
      jacobian := fun x => M * y.model.jacobian x
      covariance := fun x => M * y.model.covariance x * Mᵀ }

/-! ### Changing the units of an innovation -/

theorem det_units {m : ℕ} {M : Mat m m} (h : M.det ≠ 0) (S : Mat m m) : (M * S * Mᵀ).det = 0 ↔ S.det = 0 := by
  rw [det_mul, det_mul, det_transpose]
  constructor
  · intro h'
    rcases mul_eq_zero.1 h' with h' | h'
    · exact (mul_eq_zero.1 h').resolve_left h
    · exact absurd h' h
  · intro h'
    rw [h', mul_zero, zero_mul]

theorem inv_units {m : ℕ} {M : Mat m m} (S : Mat m m) : (M * S * Mᵀ)⁻¹ = M⁻¹ᵀ * S⁻¹ * M⁻¹ := by
  rw [Matrix.mul_inv_rev, Matrix.mul_inv_rev, ← transpose_nonsing_inv, Matrix.mul_assoc]

/-- The quadratic form of an innovation. -/
theorem quad_units {m : ℕ} {M : Mat m m} (h : M.det ≠ 0) (S : Mat m m) (z : Vec m) :
    (M *ᵥ z) ⬝ᵥ ((M * S * Mᵀ)⁻¹ *ᵥ (M *ᵥ z)) = z ⬝ᵥ (S⁻¹ *ᵥ z) := by
  have hu := unit_of_det h
  rw [inv_units, mulVec_mulVec, Matrix.mul_assoc, nonsing_inv_mul _ hu, Matrix.mul_one, ← mulVec_mulVec, dotProduct_mulVec,
    ← vecMul_transpose, vecMul_vecMul, ← transpose_mul, nonsing_inv_mul _ hu, transpose_one, vecMul_one]

theorem checkOutlier_units (chi : ℕ → ℝ) {m : ℕ} {M : Mat m m} (h : M.det ≠ 0) (S : Mat m m) (z : Vec m) :
    checkOutlier chi (M *ᵥ z) (M * S * Mᵀ) = checkOutlier chi z S := by
  have hq := quad_units h S z
  unfold checkOutlier
  by_cases hd : S.det = 0
  · rw [solve, solve, if_pos hd, if_pos ((det_units h S).2 hd)]
    rfl
  · rw [solve, solve, if_neg hd, if_neg (mt (det_units h S).1 hd)]
    have e : ∀ (A : Mat m m) (w : Vec m), ∑ i, w i * (A * col w) i () = w ⬝ᵥ (A *ᵥ w) := fun A w => rfl
    show Except.ok (decide (_ > _)) = Except.ok (decide (_ > _))
    rw [e, e, hq]

theorem symmetrize_units {m : ℕ} (M S : Mat m m) : symmetrize (M * S * Mᵀ) = M * symmetrize S * Mᵀ := by
  unfold symmetrize
  rw [transpose_mul, transpose_mul, transpose_transpose, Matrix.mul_smul, Matrix.smul_mul, Matrix.mul_add, Matrix.add_mul, Matrix.mul_assoc M Sᵀ]

theorem innov_units {m : ℕ} (M : Mat m m) (P : Mat n n) (G : Mat m n) (R : Mat m m) :
    M * G * P * (M * G)ᵀ + M * R * Mᵀ = M * (G * P * Gᵀ + R) * Mᵀ := by
  rw [transpose_mul, Matrix.mul_add, Matrix.add_mul]
  simp only [Matrix.mul_assoc]

/-- The gain, transposed. -/
theorem solve_units {m : ℕ} {M : Mat m m} (h : M.det ≠ 0) (S : Mat m m) (P : Mat n n) (G : Mat m n) :
    (solve (M * S * Mᵀ)ᵀ (P * (M * G)ᵀ)ᵀ : Except Err (Mat m n))
      = (solve Sᵀ (P * Gᵀ)ᵀ).map fun Kt : Mat m n => (M⁻¹ᵀ * Kt : Matrix (Fin m) (Fin n) ℝ) := by
  have hu := unit_of_det h
  have ht : (M * S * Mᵀ)ᵀ = M * Sᵀ * Mᵀ := by
    rw [transpose_mul, transpose_mul, transpose_transpose, Matrix.mul_assoc]
  rw [ht]
  by_cases hd : Sᵀ.det = 0
  · rw [solve, solve, if_pos hd, if_pos ((det_units h _).2 hd)]
    rfl
  · rw [solve, solve, if_neg hd, if_neg (mt (det_units h _).1 hd), inv_units]
    show Except.ok _ = Except.ok _
    congr 1
    simp only [transpose_mul, transpose_transpose]
    rw [Matrix.mul_assoc, Matrix.mul_assoc M G, ← Matrix.mul_assoc M⁻¹ M, nonsing_inv_mul _ hu, Matrix.one_mul, Matrix.mul_assoc]

theorem gain_units {m : ℕ} {M : Mat m m} (h : M.det ≠ 0) (Kt : Mat m n) : (M⁻¹ᵀ * Kt)ᵀ * M = Ktᵀ := by
  rw [transpose_mul, transpose_transpose, Matrix.mul_assoc, nonsing_inv_mul _ (unit_of_det h), Matrix.mul_one]

theorem innovation_units (y : Meas V n) (M : Mat y.m y.m) (yc : Vec y.m) :
    (fun i => (inUnits y M).value i - (M *ᵥ yc) i : Vec y.m) = M *ᵥ (fun i => y.value i - yc i) := by
  have : (fun i => y.value i - yc i : Vec y.m) = y.value - yc := rfl
  rw [this, mulVec_sub]
  rfl

/-! ### The extended Kalman filter -/

theorem fuse_core_jac (e : EkfEnv V U n) (x : SWC V n) (y : Meas V n) (xjac : Option (St V)) (reject : Bool) (yc : Vec y.m)
    (h : y.model.evaluate x.state = some yc) :
    (e.fuse x y xjac reject).map Prod.fst = fuseCore e x (fun i => y.value i - yc i : Vec y.m) (y.model.jacobian x.state)
      (y.model.covariance (xjac.getD x.state)) reject := by
  unfold EkfEnv.fuse fuseCore
  rw [h]
  cases reject with
  | false =>
    simp only [Bool.false_eq_true, if_false, bind, Except.bind]
    cases solve _ _ <;> rfl
  | true =>
    simp only [if_true, bind, Except.bind]
    cases checkOutlier _ _ _ with
    | error => rfl
    | ok b =>
      cases b
      · simp only [Bool.false_eq_true, if_false]
        cases solve _ _ <;> rfl
      · rfl

theorem fuseCore_units (e : EkfEnv V U n) (x : SWC V n) {m : ℕ} {M : Mat m m} (h : M.det ≠ 0) (z : Vec m) (G : Mat m n)
    (R : Mat m m) (reject : Bool) : fuseCore e x (M *ᵥ z) (M * G) (M * R * Mᵀ) reject = fuseCore e x z G R reject := by
  unfold fuseCore
  rw [innov_units]
  simp only []
  rw [checkOutlier_units e.chi2ppf99 h, solve_units h]
  have hg := gain_units (n := n) h
  have hg1 : ∀ Kt : Mat m n, (M⁻¹ᵀ * Kt)ᵀ *ᵥ (M *ᵥ z) = Ktᵀ *ᵥ z := by
    intro Kt
    rw [mulVec_mulVec, hg]
  have hg2 : ∀ Kt : Mat m n, (M⁻¹ᵀ * Kt)ᵀ * (M * G) = Ktᵀ * G := by
    intro Kt
    rw [← Matrix.mul_assoc, hg]
  cases reject with
  | false =>
    simp only [Bool.false_eq_true, if_false, bind, Except.bind]
    cases solve _ _ with
    | error => rfl
    | ok Kt => simp only [Except.map, hg1, hg2]
  | true =>
    simp only [if_true, bind, Except.bind]
    cases checkOutlier _ _ _ with
    | error => rfl
    | ok b =>
      cases b
      · simp only [Bool.false_eq_true, if_false]
        cases solve _ _ with
        | error => rfl
        | ok Kt => simp only [Except.map, hg1, hg2]
      · rfl

theorem evaluate_units_none (y : Meas V n) (M : Mat y.m y.m) (x : St V) (h : y.model.evaluate x = none) :
    (inUnits y M).model.evaluate x = none := by
  show (y.model.evaluate x).map _ = none
  rw [h]; rfl

theorem evaluate_units_some (y : Meas V n) (M : Mat y.m y.m) (x : St V) (yc : Vec y.m) (h : y.model.evaluate x = some yc) :
    (inUnits y M).model.evaluate x = some (M *ᵥ yc) := by
  show (y.model.evaluate x).map _ = _
  rw [h]; rfl

theorem fuse_units (e : EkfEnv V U n) (x : SWC V n) (y : Meas V n) {M : Mat y.m y.m} (h : M.det ≠ 0) (xjac : Option (St V))
    (r : Bool) : (e.fuse x (inUnits y M) xjac r).map Prod.fst = (e.fuse x y xjac r).map Prod.fst := by
  cases hy : y.model.evaluate x.state with
  | none => rw [fuse_none e x y xjac r hy, fuse_none e x _ xjac r (evaluate_units_none y M _ hy)]
  | some yc =>
    rw [fuse_core_jac e x y xjac r yc hy, fuse_core_jac e x _ xjac r _ (evaluate_units_some y M _ yc hy)]
    have := fuseCore_units e x h (fun i => y.value i - yc i) (y.model.jacobian x.state) (y.model.covariance (xjac.getD x.state)) r
    rw [← innovation_units y M yc] at this
    exact this

/-- C133: the units in which a measurement is expressed do not matter to `ExtendedKalmanFilter.correct`: same estimate, same covariance,
same decision about outliers, same exceptions. -/
theorem C133_units_ekf (e : EkfEnv V U n) (x : SWC V n) (y : Meas V n) (M : Mat y.m y.m) (h : M.det ≠ 0) (u : Option (Inp U))
    (xjac : Option (St V)) (reject : Option Bool) : e.correct x (inUnits y M) u xjac reject = e.correct x y u xjac reject := by
  have ha : e.advance x (inUnits y M) u = e.advance x y u := rfl
  unfold EkfEnv.correct EkfEnv.correctD
  rw [ha]
  cases e.advance x y u with
  | error => rfl
  | ok xp => exact fuse_units e xp y h xjac _

/-! ### The iterated extended Kalman filter -/

theorem npInv_units {m : ℕ} {M : Mat m m} (h : M.det ≠ 0) (R : Mat m m) :
    npInv (M * R * Mᵀ) = (npInv R).map fun Ri : Mat m m => (M⁻¹ᵀ * Ri * M⁻¹ : Matrix (Fin m) (Fin m) ℝ) := by
  unfold npInv
  by_cases hd : R.det = 0
  · rw [if_pos hd, if_pos ((det_units h _).2 hd)]; rfl
  · rw [if_neg hd, if_neg (mt (det_units h _).1 hd), inv_units]; rfl

theorem gnCost_units {m : ℕ} {M : Mat m m} (h : M.det ≠ 0) (Pinv : Mat n n) (Rinv : Mat m m) (e : Vec n) (z : Vec m) :
    gnCost Pinv (M⁻¹ᵀ * Rinv * M⁻¹) e (M *ᵥ z) = gnCost Pinv Rinv e z := by
  have hu := unit_of_det h
  unfold gnCost
  congr 2
  rw [mulVec_mulVec, Matrix.mul_assoc, nonsing_inv_mul _ hu, Matrix.mul_one, ← mulVec_mulVec, dotProduct_mulVec,
    ← vecMul_transpose, vecMul_vecMul, ← transpose_mul, nonsing_inv_mul _ hu, transpose_one, vecMul_one]

theorem measMinus_units (y : Meas V n) (M : Mat y.m y.m) (x : St V) :
    measMinus (inUnits y M).value ((inUnits y M).model.evaluate x) = (measMinus y.value (y.model.evaluate x)).map (M *ᵥ ·) := by
  cases hy : y.model.evaluate x with
  | none => rw [evaluate_units_none y M x hy]; rfl
  | some yc =>
    rw [evaluate_units_some y M x yc hy]
    exact congrArg Except.ok (innovation_units y M yc)

theorem lineSearch_units (f : IekfEnv V U n) (x : SWC V n) {m : ℕ} (v : Vec m) (st : Option ℝ) (mod : MeasModel V n m) {M : Mat m m}
    (h : M.det ≠ 0) (xop : St V) (dx : Vec n) (Pinv : Mat n n) (Rinv : Mat m m) (c : ℝ) : ∀ (fuel : ℕ) (a : ℝ),
    f.lineSearchLoop x (inUnits ⟨m, v, st, mod⟩ M) xop dx Pinv (M⁻¹ᵀ * Rinv * M⁻¹) c fuel a
      = f.lineSearchLoop x ⟨m, v, st, mod⟩ xop dx Pinv Rinv c fuel a
  | 0, a => rfl
  | fuel + 1, a => by
    have ih := lineSearch_units f x v st mod h xop dx Pinv Rinv c fuel (a * (9 / 10))
    have hm := measMinus_units ⟨m, v, st, mod⟩ M (f.plusSt xop (a • dx))
    by_cases ha : a > f.stepTol
    · refine (if_pos ha).trans (Eq.trans ?_ (if_pos ha).symm)
      simp only [hm, ih]
      cases measMinus v (mod.evaluate (f.plusSt xop (a • dx))) with
      | error => rfl
      | ok z =>
        have hc := gnCost_units h Pinv Rinv (f.minus (f.plusSt xop (a • dx)).value x.state.value) z
        refine Eq.trans (b := if gnCost Pinv (M⁻¹ᵀ * Rinv * M⁻¹) (f.minus (f.plusSt xop (a • dx)).value x.state.value) (M *ᵥ z) < c
          then Except.ok (some (f.plusSt xop (a • dx))) else f.lineSearchLoop x ⟨m, v, st, mod⟩ xop dx Pinv Rinv c fuel (a * (9 / 10))) rfl ?_
        rw [hc]
        rfl
    · exact (if_neg ha).trans (if_neg ha).symm

/-- One pass, in terms of the innovation, the Jacobian and the covariance of the measurement at the operating point. -/
noncomputable def passCore (f : IekfEnv V U n) (x : SWC V n) (r : Bool) (xop : St V) {m : ℕ} (R : Mat m m) (G : Mat m n) (z : Vec m)
    (search : Vec n → Mat n n → Mat m m → ℝ → Except Err (Option (St V))) : Except Err (GnOutcome V) := do
  let e := f.minus xop.value x.state.value
  let J := f.plusJac xop.value e
  let Pinv ← npInv x.cov
  let Rinv ← npInv R
  let costOld := gnCost Pinv Rinv e z
  let P := J * x.cov * Jᵀ
  let S := symmetrize (G * P * Gᵀ + R)
  let outlier ← maybeOutlier f.chi2ppf99 r z S
  if outlier then .ok .outlier
  else do
    let Kt ← solve Sᵀ (P * Gᵀ)ᵀ
    let K := Ktᵀ
    let dx : Vec n := -(J *ᵥ e) + K *ᵥ (z + G *ᵥ (J *ᵥ e))
    if npNorm dx < f.stepTol then .ok .stop
    else if f.lineSearch then do
      let r ← search dx Pinv Rinv costOld
      match r with
      | some xnew => .ok (.step xnew)
      | none => .ok .stop
    else .ok (.step (f.plusSt xop dx))

theorem gnPass_core (f : IekfEnv V U n) (fuel : ℕ) (x : SWC V n) (y : Meas V n) (r : Bool) (xop : St V) :
    f.gnPass fuel x y r xop = (measMinus y.value (y.model.evaluate xop)).bind fun z => passCore f x r xop (y.model.covariance xop)
      (y.model.jacobian xop) z fun dx Pi Ri c => f.lineSearchLoop x y xop dx Pi Ri c fuel 1 := rfl

theorem passCore_units (f : IekfEnv V U n) (x : SWC V n) (r : Bool) (xop : St V) {m : ℕ} {M : Mat m m} (h : M.det ≠ 0) (R : Mat m m)
    (G : Mat m n) (z : Vec m) (search search' : Vec n → Mat n n → Mat m m → ℝ → Except Err (Option (St V)))
    (hs : ∀ dx Pi Ri c, search' dx Pi (M⁻¹ᵀ * Ri * M⁻¹) c = search dx Pi Ri c) :
    passCore f x r xop (M * R * Mᵀ) (M * G) (M *ᵥ z) search' = passCore f x r xop R G z search := by
  unfold passCore
  simp only [bind, Except.bind]
  cases npInv x.cov with
  | error => rfl
  | ok Pinv =>
    simp only []
    rw [npInv_units h]
    cases npInv R with
    | error => rfl
    | ok Rinv =>
      simp only [Except.map]
      rw [innov_units, symmetrize_units, gnCost_units h]
      have ho : ∀ S : Mat m m, maybeOutlier f.chi2ppf99 r (M *ᵥ z) (M * S * Mᵀ) = maybeOutlier f.chi2ppf99 r z S := by
        intro S
        unfold maybeOutlier
        rw [checkOutlier_units _ h]
      rw [ho]
      cases maybeOutlier f.chi2ppf99 r z _ with
      | error => rfl
      | ok o =>
        cases o with
        | true => rfl
        | false =>
          simp only [Bool.false_eq_true, if_false]
          rw [solve_units h]
          cases solve _ _ with
          | error => rfl
          | ok Kt =>
            simp only [Except.map]
            have hdx : ∀ w : Vec n, (M⁻¹ᵀ * Kt)ᵀ *ᵥ (M *ᵥ z + (M * G) *ᵥ w) = Ktᵀ *ᵥ (z + G *ᵥ w) := by
              intro w
              rw [← mulVec_mulVec _ M G, ← mulVec_add, mulVec_mulVec _ _ M, gain_units h]
            rw [hdx, hs]


theorem gnPass_units (f : IekfEnv V U n) (fuel : ℕ) (x : SWC V n) (y : Meas V n) {M : Mat y.m y.m} (h : M.det ≠ 0) (r : Bool)
    (xop : St V) : f.gnPass fuel x (inUnits y M) r xop = f.gnPass fuel x y r xop := by
  obtain ⟨m, v, st, mod⟩ := y
  have h1 : ∀ z : Vec m, passCore f x r xop (M * mod.covariance xop * Mᵀ) (M * mod.jacobian xop) (M *ᵥ z)
      (fun dx Pi Ri c => f.lineSearchLoop x (inUnits ⟨m, v, st, mod⟩ M) xop dx Pi Ri c fuel 1)
      = passCore f x r xop (mod.covariance xop) (mod.jacobian xop) z
      (fun dx Pi Ri c => f.lineSearchLoop x ⟨m, v, st, mod⟩ xop dx Pi Ri c fuel 1) := fun z =>
    passCore_units f x r xop h _ _ z _ _ (fun dx Pi Ri c => lineSearch_units f x v st mod h xop dx Pi Ri c fuel 1)
  rw [gnPass_core f fuel x ⟨m, v, st, mod⟩]
  refine (gnPass_core f fuel x (inUnits ⟨m, v, st, mod⟩ M) r xop).trans ?_
  have h2 := measMinus_units ⟨m, v, st, mod⟩ M xop
  refine (congrArg (fun q => Except.bind q _) h2).trans ?_
  cases measMinus v (mod.evaluate xop) with
  | error err => exact Eq.trans (b := Except.error err) rfl rfl
  | ok z => exact Eq.trans (Eq.trans rfl (h1 z)) rfl

theorem gnLoop_units (f : IekfEnv V U n) (fuel : ℕ) (x : SWC V n) (y : Meas V n) {M : Mat y.m y.m} (h : M.det ≠ 0) (r : Bool) (k : ℕ) :
    ∀ (xop : St V) (tr : List (St V)), f.gnLoop fuel x (inUnits y M) r k xop tr = f.gnLoop fuel x y r k xop tr := by
  induction k with
  | zero => intro xop tr; rw [IekfEnv.gnLoop, IekfEnv.gnLoop]
  | succ k ih =>
    intro xop tr
    rw [IekfEnv.gnLoop, IekfEnv.gnLoop, gnPass_units f fuel x y h]
    simp only [ih]

/-- The final covariance, in terms of the Jacobian and the covariance of the measurement. -/
noncomputable def finishCore (f : IekfEnv V U n) (x : SWC V n) (xop : St V) {m : ℕ} (R : Mat m m) (G : Mat m n) : Except Err (SWC V n) := do
  let e := f.minus xop.value x.state.value
  let J := f.plusJac xop.value e
  let P := J * x.cov * Jᵀ
  let S := symmetrize (G * P * Gᵀ + R)
  let Kt ← solve Sᵀ (P * Gᵀ)ᵀ
  let K := Ktᵀ
  return { state := xop, cov := (1 - K * G) * (J * x.cov * Jᵀ) }

theorem finish_core (f : IekfEnv V U n) (x : SWC V n) (y : Meas V n) (xjac : Option (St V)) (xop : St V) :
    f.finish x y xjac xop = finishCore f x xop (y.model.covariance (xjac.getD xop)) (y.model.jacobian (xjac.getD xop)) := rfl

theorem finishCore_units (f : IekfEnv V U n) (x : SWC V n) (xop : St V) {m : ℕ} {M : Mat m m} (h : M.det ≠ 0) (R : Mat m m) (G : Mat m n) :
    finishCore f x xop (M * R * Mᵀ) (M * G) = finishCore f x xop R G := by
  unfold finishCore
  simp only [bind, Except.bind]
  rw [innov_units, symmetrize_units, solve_units h]
  cases solve _ _ with
  | error => rfl
  | ok Kt =>
    have hk : (M⁻¹ᵀ * Kt)ᵀ * (M * G) = Ktᵀ * G := by rw [← Matrix.mul_assoc, gain_units h]
    simp only [Except.map, hk]

theorem finish_units (f : IekfEnv V U n) (x : SWC V n) (y : Meas V n) {M : Mat y.m y.m} (h : M.det ≠ 0) (xjac : Option (St V))
    (xop : St V) : f.finish x (inUnits y M) xjac xop = f.finish x y xjac xop := by
  rw [finish_core, finish_core]
  exact finishCore_units f x xop h _ _

/-- C133: nor to `IteratedKalmanFilter.correct`, with or without the line search: same iterates, same estimate, same covariance, same
decision about outliers, same exceptions. -/
theorem C133_units_iekf (f : IekfEnv V U n) (fuel : ℕ) (x : SWC V n) (y : Meas V n) (M : Mat y.m y.m) (h : M.det ≠ 0)
    (u : Option (Inp U)) (xjac : Option (St V)) (reject : Option Bool) :
    f.correctI fuel x (inUnits y M) u xjac reject = f.correctI fuel x y u xjac reject := by
  have ha : f.advanceI x (inUnits y M) u = f.advanceI x y u := rfl
  have hc : ∀ xp o xop, f.conclude xp (inUnits y M) xjac o xop = f.conclude xp y xjac o xop := by
    intro xp o xop
    unfold IekfEnv.conclude
    rw [finish_units f xp y h]
  have hf : ∀ xp r, f.fuseI fuel xp (inUnits y M) xjac r = f.fuseI fuel xp y xjac r := by
    intro xp r
    unfold IekfEnv.fuseI
    rw [gnLoop_units f fuel xp y h]
    simp only [hc]
  unfold IekfEnv.correctI IekfEnv.correctT
  rw [ha]
  simp only [hf]

/-! ### The sigma point filters -/

variable {k : ℕ}

theorem evalPoints_units {m : ℕ} (M : Mat m m) (ev : Vec n → Option (Vec m)) : ∀ l : Weighted (Vec n),
    evalPoints (fun s => (ev s).map (M *ᵥ ·)) l = (evalPoints ev l).map (List.map fun p => (p.1, (p.2.1, M *ᵥ p.2.2)))
  | [] => rfl
  | (w, s) :: l => by
    have ih := evalPoints_units M ev l
    simp only [evalPoints]
    cases ev s with
    | none => rfl
    | some y =>
      simp only [Option.map_some, ih]
      cases evalPoints ev l <;> rfl

/-- The update from the propagated measurements, in terms of the value and the covariance of the measurement. -/
noncomputable def ysCore (f : SpkfEnv V U n k) (x : SWC V n) {m : ℕ} (v : Vec m) (R : Mat m m) (reject : Bool)
    (ys : Weighted (Vec n × Vec m)) : Except Err (SWC V n) := do
  let ymean : Vec m := wsum ys fun p => p.2
  let Pyy : Mat m m := (wsum ys fun p => vecMulVec (p.2 - ymean) (p.2 - ymean)) + R
  let Pxy : Mat n m := wsum ys fun p => vecMulVec p.1 (p.2 - ymean)
  let z : Vec m := v - ymean
  let outlier ← maybeOutlier f.chi2ppf99 reject z Pyy
  if outlier then .ok x else f.update x z Pyy Pxy

theorem fuseYs_core (f : SpkfEnv V U n k) (x : SWC V n) (y : Meas V n) (reject : Bool) (ys : Weighted (Vec n × Vec y.m)) :
    f.fuseYs x y reject ys = ysCore f x y.value (y.model.covariance x.state) reject ys := rfl

theorem update_units (f : SpkfEnv V U n k) (x : SWC V n) {m : ℕ} {M : Mat m m} (h : M.det ≠ 0) (z : Vec m) (Pyy : Mat m m) (Pxy : Mat n m) :
    f.update x (M *ᵥ z) (M * Pyy * Mᵀ) (Pxy * Mᵀ) = f.update x z Pyy Pxy := by
  have hu := unit_of_det h
  unfold SpkfEnv.update
  have hs : (solve (M * Pyy * Mᵀ)ᵀ (Pxy * Mᵀ)ᵀ : Except Err (Mat m n))
      = (solve Pyyᵀ Pxyᵀ).map fun Kt : Mat m n => (M⁻¹ᵀ * Kt : Matrix (Fin m) (Fin n) ℝ) := by
    have ht : (M * Pyy * Mᵀ)ᵀ = M * Pyyᵀ * Mᵀ := by
      rw [transpose_mul, transpose_mul, transpose_transpose, Matrix.mul_assoc]
    rw [ht]
    by_cases hd : Pyyᵀ.det = 0
    · rw [solve, solve, if_pos hd, if_pos ((det_units h _).2 hd)]
      rfl
    · rw [solve, solve, if_neg hd, if_neg (mt (det_units h _).1 hd), inv_units]
      show Except.ok _ = Except.ok _
      congr 1
      rw [transpose_mul, transpose_transpose, Matrix.mul_assoc, ← Matrix.mul_assoc M⁻¹ M, nonsing_inv_mul _ hu, Matrix.one_mul, Matrix.mul_assoc]
  rw [hs]
  cases solve Pyyᵀ Pxyᵀ with
  | error => rfl
  | ok Kt =>
    have h1 : (M⁻¹ᵀ * Kt)ᵀ *ᵥ (M *ᵥ z) = Ktᵀ *ᵥ z := by rw [mulVec_mulVec, gain_units h]
    have h2 : (M⁻¹ᵀ * Kt)ᵀ * (Pxy * Mᵀ)ᵀ = Ktᵀ * Pxyᵀ := by
      rw [transpose_mul Pxy, transpose_transpose, ← Matrix.mul_assoc, gain_units h]
    simp only [Except.map, bind, Except.bind, h1, h2]

theorem ysCore_units (f : SpkfEnv V U n k) (x : SWC V n) {m : ℕ} {M : Mat m m} (h : M.det ≠ 0) (v : Vec m) (R : Mat m m) (reject : Bool)
    (ys : Weighted (Vec n × Vec m)) :
    ysCore f x (M *ᵥ v) (M * R * Mᵀ) reject (ys.map fun p => (p.1, (p.2.1, M *ᵥ p.2.2))) = ysCore f x v R reject ys := by
  have e0 : ∀ (N : Type) [AddCommGroup N] [Module ℝ N] (g : Vec n × Vec m → N),
      wsum (ys.map fun p => (p.1, (p.2.1, M *ᵥ p.2.2))) g = wsum ys fun p => g (p.1, M *ᵥ p.2) := by
    intro N _ _ g
    exact wsum_map ys (fun p : Vec n × Vec m => (p.1, M *ᵥ p.2)) g
  have e1 : wsum (ys.map fun p => (p.1, (p.2.1, M *ᵥ p.2.2))) (fun p => p.2) = M *ᵥ wsum ys fun p => p.2 := by
    rw [e0]
    exact wsum_linear (Matrix.mulVecLin M) ys (fun p => p.2)
  set a := wsum ys fun p => p.2 with ha
  have e2 : (wsum (ys.map fun p => (p.1, (p.2.1, M *ᵥ p.2.2))) fun p => vecMulVec (p.2 - M *ᵥ a) (p.2 - M *ᵥ a))
      = M * (wsum ys fun p => vecMulVec (p.2 - a) (p.2 - a)) * Mᵀ := by
    rw [e0]
    have : (fun p : Vec n × Vec m => vecMulVec (M *ᵥ p.2 - M *ᵥ a) (M *ᵥ p.2 - M *ᵥ a))
        = fun p => M * vecMulVec (p.2 - a) (p.2 - a) * Mᵀ := by
      funext p
      rw [← mulVec_sub, mulVec_vecMulVec_T]
    show (wsum ys fun p : Vec n × Vec m => vecMulVec (M *ᵥ p.2 - M *ᵥ a) (M *ᵥ p.2 - M *ᵥ a)) = _
    rw [this]
    exact wsum_linear ((LinearMap.mulRight ℝ Mᵀ).comp (LinearMap.mulLeft ℝ M)) ys fun p => vecMulVec (p.2 - a) (p.2 - a)
  have e3 : (wsum (ys.map fun p => (p.1, (p.2.1, M *ᵥ p.2.2))) fun p => vecMulVec p.1 (p.2 - M *ᵥ a))
      = (wsum ys fun p => vecMulVec p.1 (p.2 - a)) * Mᵀ := by
    rw [e0]
    have : (fun p : Vec n × Vec m => vecMulVec p.1 (M *ᵥ p.2 - M *ᵥ a)) = fun p => vecMulVec p.1 (p.2 - a) * Mᵀ := by
      funext p
      rw [← mulVec_sub, Matrix.vecMulVec_mul, vecMul_transpose]
    show (wsum ys fun p : Vec n × Vec m => vecMulVec p.1 (M *ᵥ p.2 - M *ᵥ a)) = _
    rw [this]
    exact wsum_linear (⟨⟨fun A => A * Mᵀ, fun A B => Matrix.add_mul A B _⟩, fun c A => Matrix.smul_mul c A _⟩ : Mat n m →ₗ[ℝ] Mat n m) ys fun p => vecMulVec p.1 (p.2 - a)
  unfold ysCore
  simp only []
  rw [e1, e2, e3, ← mulVec_sub, ← ha, ← Matrix.add_mul, ← Matrix.mul_add]
  have ho : ∀ (S : Mat m m) z, maybeOutlier f.chi2ppf99 reject (M *ᵥ z) (M * S * Mᵀ) = maybeOutlier f.chi2ppf99 reject z S := by
    intro S z
    unfold maybeOutlier
    rw [checkOutlier_units _ h]
  rw [ho, update_units f x h]

theorem fuseYs_units (f : SpkfEnv V U n k) (x : SWC V n) (y : Meas V n) {M : Mat y.m y.m} (h : M.det ≠ 0) (r : Bool)
    (ys : Weighted (Vec n × Vec y.m)) :
    f.fuseYs x (inUnits y M) r (ys.map fun p => (p.1, (p.2.1, M *ᵥ p.2.2))) = f.fuseYs x y r ys := by
  have h1 := ysCore_units f x h y.value (y.model.covariance x.state) r ys
  have h2 : ∀ ys' : Weighted (Vec n × Vec y.m), f.fuseYs x (inUnits y M) r ys'
    = ysCore f x (M *ᵥ y.value) (M * y.model.covariance x.state * Mᵀ) r ys' := fun _ => rfl
  rw [fuseYs_core f x y, ← h1]
  exact h2 _

theorem fuseS_units (f : SpkfEnv V U n k) (x : SWC V n) (y : Meas V n) {M : Mat y.m y.m} (h : M.det ≠ 0) (r : Bool) :
    f.fuse x (inUnits y M) r = f.fuse x y r := by
  unfold SpkfEnv.fuse
  cases generateSigmapoints n f.method with
  | error err => exact Eq.trans (b := Except.error err) rfl rfl
  | ok unit =>
    cases npCholesky x.cov with
    | error err => exact Eq.trans (b := Except.error err) rfl rfl
    | ok L =>
      simp only [bind, Except.bind]
      cases hy : y.model.evaluate x.state with
      | none =>
        rw [evaluate_units_none y M _ hy]
      | some yc =>
        rw [evaluate_units_some y M _ yc hy]
        simp only []
        have he := evalPoints_units M (fun s => y.model.evaluate { x.state with value := f.plus x.state.value s })
          (unit.map fun p => (p.1, L *ᵥ p.2))
        have he' : evalPoints (fun s => (inUnits y M).model.evaluate { x.state with value := f.plus x.state.value s })
          (unit.map fun p => (p.1, L *ᵥ p.2)) = _ := he
        rw [he']
        cases evalPoints (fun s => y.model.evaluate { x.state with value := f.plus x.state.value s }) (unit.map fun p => (p.1, L *ᵥ p.2)) with
        | error err => exact Eq.trans (b := Except.error err) rfl rfl
        | ok ys =>
          simp only [Except.map]
          exact fuseYs_units f x y h r ys

/-- C133: nor to the sigma point filters. -/
theorem C133_units_spkf (f : SpkfEnv V U n k) (x : SWC V n) (y : Meas V n) (M : Mat y.m y.m) (h : M.det ≠ 0) (u : Option (CInp U k))
    (reject : Option Bool) : f.correct x (inUnits y M) u reject = f.correct x y u reject := by
  have ha : f.advance x (inUnits y M) u = f.advance x y u := rfl
  unfold SpkfEnv.correct
  rw [ha]
  simp only [fuseS_units f _ y h]

/-! ### Whole runs -/

/-- A time-stamped measurement in other units. -/
def stInUnits (units : (y : StMeas V n) → Mat y.meas.m y.meas.m) (y : StMeas V n) : StMeas V n where
  meas := inUnits y.meas (units y)
  stamp := y.stamp
  hstamp := y.hstamp

theorem run_units {X I : Type} (api : FilterApi X I (StMeas V n)) (units : (y : StMeas V n) → Mat y.meas.m y.meas.m)
    (hs : ∀ y, api.ystamp y = y.stamp) (hc : ∀ x y u, api.correct x (stInUnits units y) u = api.correct x y u) (x0 : X) (ins : List I)
    (meas : List (StMeas V n)) : runFilter api x0 ins (meas.map (stInUnits units)) = runFilter api x0 ins meas := by
  have hsim : FilterSim api api 0 Eq Eq (fun y y' => y' = stInUnits units y) := by
    refine ⟨?_, ?_, ?_, ?_, ?_⟩
    · rintro x _ rfl
      cases api.xstamp x <;> simp
    · rintro u _ rfl; exact (add_zero _).symm
    · rintro y _ rfl
      rw [hs, hs]
      exact (add_zero _).symm
    · rintro x _ u _ dt rfl rfl
      cases api.predict x u dt <;> rfl
    · rintro x _ u _ y _ rfl rfl rfl
      rw [hc]
      cases api.correct x y u <;> rfl
  have h := hsim.runFilter (x0 := x0) (x0' := x0) rfl (ins := ins) (ins' := ins)
    (List.forall₂_same.mpr fun _ _ => rfl) (meas := meas) (meas' := meas.map (stInUnits units))
    (by
      rw [List.forall₂_map_right_iff]
      exact List.forall₂_same.mpr fun _ _ => rfl)
  refine (exRel_eq (h.mono fun a b hab => ?_)).symm
  exact List.forall₂_eq_eq_eq ▸ hab

/-- C133: nor to `run_filter` with any of the three Kalman filters: a log whose measurements are all expressed in other units (possibly
different ones for each) gives the same results. -/
theorem C133_units_run (units : (y : StMeas V n) → Mat y.meas.m y.meas.m) (h : ∀ y, (units y).det ≠ 0) (x0 : SWC V n)
    (meas : List (StMeas V n)) :
    (∀ (e : EkfEnv V U n) (ins : List (StInp U)),
      runFilter (ekfApi e) x0 ins (meas.map (stInUnits units)) = runFilter (ekfApi e) x0 ins meas) ∧
    (∀ (f : IekfEnv V U n) (fuel : ℕ) (ins : List (StInp U)),
      runFilter (iekfApi f fuel) x0 ins (meas.map (stInUnits units)) = runFilter (iekfApi f fuel) x0 ins meas) ∧
    (∀ (f : SpkfEnv V U n k) (ins : List (StInp (U × Mat k k))),
      runFilter (spkfApi f) x0 ins (meas.map (stInUnits units)) = runFilter (spkfApi f) x0 ins meas) :=
  ⟨fun e ins => run_units (ekfApi e) units (fun _ => rfl) (fun x y u => C133_units_ekf e x y.meas (units y) (h y) _ _ _) x0 ins meas,
   fun f fuel ins => run_units (iekfApi f fuel) units (fun _ => rfl)
    (fun x y u => C133_units_iekf f fuel x y.meas (units y) (h y) _ _ _) x0 ins meas,
   fun f ins => run_units (spkfApi f) units (fun _ => rfl) (fun x y u => C133_units_spkf f x y.meas (units y) (h y) _ _) x0 ins meas⟩

/-! ### The interacting multiple model filter -/

theorem gaussPdf_units {m : ℕ} {M : Mat m m} (h : M.det ≠ 0) (S : Mat m m) (z : Vec m) :
    gaussPdf (M *ᵥ z) (M * S * Mᵀ) = |M.det|⁻¹ * gaussPdf z S := by
  unfold gaussPdf
  rw [quad_units h, det_mul, det_mul, det_transpose]
  have e : (2 * Real.pi) ^ m * (M.det * S.det * M.det) = M.det ^ 2 * ((2 * Real.pi) ^ m * S.det) := by ring
  rw [e, Real.sqrt_mul (sq_nonneg _), Real.sqrt_sq_eq_abs, div_mul_eq_div_div_swap, div_eq_inv_mul (_ / _)]

theorem fuse_lik (e : EkfEnv V U n) (x : SWC V n) (y : Meas V n) (r : Bool) (yc : Vec y.m) (h : y.model.evaluate x.state = some yc) :
    ((e.fuse x y none r).bind fun q => (match q.2 with | none => Except.error Err.keyError | some d => Except.ok (q.1, gaussPdf d.z d.S)))
      = (fuseCore e x (fun i => y.value i - yc i : Vec y.m) (y.model.jacobian x.state) (y.model.covariance x.state) r).map fun x' =>
        (x', gaussPdf (fun i => y.value i - yc i) (y.model.jacobian x.state * x.cov * (y.model.jacobian x.state)ᵀ + y.model.covariance x.state)) := by
  unfold EkfEnv.fuse fuseCore
  rw [h]
  simp only [Option.getD_none]
  cases r with
  | false =>
    simp only [Bool.false_eq_true, if_false, bind, Except.bind]
    cases solve _ _ <;> rfl
  | true =>
    simp only [if_true, bind, Except.bind]
    cases checkOutlier _ _ _ with
    | error => rfl
    | ok b =>
      cases b
      · simp only [Bool.false_eq_true, if_false]
        cases solve _ _ <;> rfl
      · rfl

theorem correctLik_eq (e : EkfEnv V U n) (x : SWC V n) (y : Meas V n) (u : Option (Inp U)) :
    correctLik e x y u = (e.advance x y u).bind fun xp => (e.fuse xp y none e.rejectOutliers).bind
      fun q => (match q.2 with | none => Except.error Err.keyError | some d => Except.ok (q.1, gaussPdf d.z d.S)) := by
  unfold correctLik EkfEnv.correctD
  cases e.advance x y u with
  | error => rfl
  | ok xp =>
    show (e.fuse xp y none e.rejectOutliers).bind _ = _
    rfl

theorem correctLik_units (e : EkfEnv V U n) (x : SWC V n) (y : Meas V n) {M : Mat y.m y.m} (h : M.det ≠ 0) (u : Option (Inp U)) :
    correctLik e x (inUnits y M) u = (correctLik e x y u).map fun q => (q.1, |M.det|⁻¹ * q.2) := by
  have ha : e.advance x (inUnits y M) u = e.advance x y u := rfl
  rw [correctLik_eq, correctLik_eq, ha]
  cases e.advance x y u with
  | error => rfl
  | ok xp =>
    show (e.fuse xp (inUnits y M) none e.rejectOutliers).bind _ = Except.map _ ((e.fuse xp y none e.rejectOutliers).bind _)
    cases hy : y.model.evaluate xp.state with
    | none => rw [fuse_none e xp y none _ hy, fuse_none e xp _ none _ (evaluate_units_none y M _ hy)]; rfl
    | some yc =>
      rw [fuse_lik e xp y _ yc hy, fuse_lik e xp _ _ _ (evaluate_units_some y M _ yc hy)]
      have h1 := fuseCore_units e xp h (fun i => y.value i - yc i) (y.model.jacobian xp.state) (y.model.covariance xp.state) e.rejectOutliers
      rw [← innovation_units y M yc] at h1
      have h2 := gaussPdf_units h (y.model.jacobian xp.state * xp.cov * (y.model.jacobian xp.state)ᵀ + y.model.covariance xp.state)
        (fun i => y.value i - yc i)
      rw [← innov_units, ← innovation_units y M yc] at h2
      refine (congrArg₂ (fun (a : Except Err (SWC V n)) (b : ℝ) => a.map fun x' => (x', b)) h1 h2).trans ?_
      cases fuseCore e xp (fun i => y.value i - yc i : Vec y.m) (y.model.jacobian xp.state) (y.model.covariance xp.state) e.rejectOutliers <;> rfl

theorem seqFin_map {α β : Type} (φ : α → β) : ∀ (N : ℕ) (g : Fin N → Except Err α),
    seqFin N (fun i => (g i).map φ) = (seqFin N g).map fun r i => φ (r i)
  | 0, g => by
    show Except.ok _ = Except.ok _
    congr 1
    funext i
    exact i.elim0
  | N + 1, g => by
    have ih := seqFin_map φ N fun i => g i.succ
    unfold seqFin
    beta_reduce
    cases g 0 with
    | error => rfl
    | ok a =>
      show (seqFin N (fun i => (g i.succ).map φ) >>= _) = Except.map _ (seqFin N (fun i => g i.succ) >>= _)
      rw [ih]
      cases seqFin N fun i => g i.succ with
      | error => rfl
      | ok r =>
        show Except.ok _ = Except.ok _
        congr 1
        funext i
        refine Fin.cases ?_ (fun j => ?_) i <;> simp

theorem renormalize_scale {N : ℕ} {c : ℝ} (hc : c ≠ 0) (mu : Fin N → ℝ) (h : ∃ i, 1 / 10 ^ 8 < |mu i|) (h' : ∃ i, 1 / 10 ^ 8 < |c * mu i|) :
    renormalize (fun i => c * mu i) = renormalize mu := by
  unfold renormalize
  obtain ⟨i, hi⟩ := h
  obtain ⟨j, hj⟩ := h'
  simp only []
  rw [if_neg (fun H => absurd (H j) (not_le.2 hj)), if_neg (fun H => absurd (H i) (not_le.2 hi))]
  funext l
  rw [← Finset.mul_sum, mul_div_mul_left _ _ hc]

/-- C133: the estimates of the models of an `InteractingModelFilter` do not depend on the units either. The probabilities of the models do
not, as long as, in both units, the likelihood times the prior probability of some model is more than `1e-8`. -/
theorem C133_units_imm {N : ℕ} (f : Imm V U n N) (x : Mixture V n N) (y : Meas V n) (M : Mat y.m y.m) (h : M.det ≠ 0) (u : Option (Inp U)) :
    (∀ err, f.correct x y u = .error err → f.correct x (inUnits y M) u = .error err) ∧
    ∀ x', f.correct x y u = .ok x' → ∃ (lik : Fin N → ℝ) (x'' : Mixture V n N),
      (∀ i, correctLik (f.kfs i) (x.states i) y u = .ok (x'.states i, lik i)) ∧ f.correct x (inUnits y M) u = .ok x'' ∧
      x''.states = x'.states ∧
      ((∃ i, 1 / 10 ^ 8 < |lik i * predProb f.trans x.probs i|) →
        (∃ i, 1 / 10 ^ 8 < |M.det|⁻¹ * |lik i * predProb f.trans x.probs i|) → x''.probs = x'.probs) := by
  have hs : seqFin N (fun i => correctLik (f.kfs i) (x.states i) (inUnits y M) u)
      = (seqFin N fun i => correctLik (f.kfs i) (x.states i) y u).map fun r i => ((r i).1, |M.det|⁻¹ * (r i).2) := by
    rw [← seqFin_map (fun q : SWC V n × ℝ => (q.1, |M.det|⁻¹ * q.2))]
    congr 1
    funext i
    exact correctLik_units _ _ y h u
  have hc : |M.det|⁻¹ ≠ 0 := inv_ne_zero (abs_ne_zero.2 h)
  unfold Imm.correct
  rw [hs]
  cases hr : seqFin N fun i => correctLik (f.kfs i) (x.states i) y u with
  | error e0 =>
    constructor
    · rintro err h1
      have : e0 = err := by simpa [bind, Except.bind] using h1
      rw [this]; rfl
    · intro x' h1
      cases h1
  | ok r =>
    constructor
    · intro err h1
      cases h1
    · intro x' h1
      have h2 : x' = ⟨fun i => (r i).1, renormalize fun i => (r i).2 * predProb f.trans x.probs i⟩ := (Except.ok.inj h1).symm
      subst h2
      refine ⟨fun i => (r i).2, ⟨fun i => (r i).1, renormalize fun i => |M.det|⁻¹ * (r i).2 * predProb f.trans x.probs i⟩, fun i => ?_, rfl, rfl, ?_⟩
      · exact seqFin_ok hr i
      · intro h3 h4
        have := renormalize_scale hc (fun i => (r i).2 * predProb f.trans x.probs i) h3 (by
          obtain ⟨i, hi⟩ := h4
          refine ⟨i, ?_⟩
          rw [abs_mul, abs_of_nonneg (inv_nonneg.2 (abs_nonneg _))]
          exact hi)
        rw [← this]
        simp only [mul_assoc]

/-! ### The fudge factor of the interacting multiple model filter -/

theorem correctLik_linear (proc : ProcModel (Vec n) U n) (chi : ℕ → ℝ) {m : ℕ} (C : Mat m n) (R : Mat m m) (hR : R.PosDef) (v : Vec m)
    (t : ℝ) (x : SWC (Vec n) n) (hP : x.cov.PosSemidef) (hx : x.state.stamp = some t) :
    ∃ s, correctLik (vecEnv proc false chi) x (linMeas C R v (some t)) none
      = .ok (s, gaussPdf (v - C *ᵥ x.state.value) (C * x.cov * Cᵀ + R)) := by
  have ha : (vecEnv proc false chi).advance x (linMeas C R v (some t)) none = .ok x := by
    unfold EkfEnv.advance
    simp only [hx, linMeas, sub_self]
    rw [if_neg (by norm_num)]
  have hd : (C * x.cov * Cᵀ + R)ᵀ.det ≠ 0 := by
    rw [det_transpose]
    exact pd_det (innov_pd hP C hR)
  have hf : ∃ s, fuseCore (vecEnv proc false chi) x (v - C *ᵥ x.state.value) C R false = .ok s := by
    have hs : solve (C * x.cov * Cᵀ + R)ᵀ (x.cov * Cᵀ)ᵀ = .ok ((C * x.cov * Cᵀ + R)ᵀ⁻¹ * (x.cov * Cᵀ)ᵀ) := by
      unfold solve
      exact if_neg hd
    unfold fuseCore
    simp only [Bool.false_eq_true, if_false, bind, Except.bind, hs]
    exact ⟨_, rfl⟩
  obtain ⟨s, hs⟩ := hf
  refine ⟨s, ?_⟩
  rw [correctLik_eq, ha]
  refine (fuse_lik (vecEnv proc false chi) x (linMeas C R v (some t)) false (C *ᵥ x.state.value) rfl).trans ?_
  exact congrArg (fun q : Except Err (SWC (Vec n) n) => q.map fun x' => (x', gaussPdf (v - C *ᵥ x.state.value) (C * x.cov * Cᵀ + R))) hs

/-- Two scalar models that disagree about the position: one believes `0`, the other `1`. -/
noncomputable def twoPositions : Mixture (Vec 1) 1 2 where
  states i := { state := ⟨fun _ => (i : ℕ), some 0⟩, cov := 1 }
  probs _ := 1 / 2

/-- An interacting multiple model filter with two models. -/
noncomputable def twoModels : Imm (Vec 1) ℝ 1 2 := ⟨fun _ => env1, vecOps 1, 1⟩

/-- A measurement of the position: it is `0`. -/
noncomputable def position0 : Meas (Vec 1) 1 := linMeas (1 : Mat 1 1) (1 : Mat 1 1) 0 (some 0)

theorem pdf_two (a : ℝ) : gaussPdf (m := 1) (fun _ => a) ((1 : Mat 1 1) * 1 * (1 : Mat 1 1)ᵀ + 1)
    = Real.exp (-(a ^ 2 / 4)) / Real.sqrt (4 * Real.pi) := by
  have e : ((1 : Mat 1 1) * 1 * (1 : Mat 1 1)ᵀ + 1) = (2 : ℝ) • (1 : Mat 1 1) := by
    rw [transpose_one, Matrix.mul_one, Matrix.mul_one, two_smul]
  have hi : ((2 : ℝ) • (1 : Mat 1 1))⁻¹ = (2 : ℝ)⁻¹ • (1 : Mat 1 1) := by
    refine inv_eq_right_inv ?_
    rw [Matrix.smul_mul, Matrix.mul_smul, Matrix.mul_one, smul_smul]
    norm_num
  unfold gaussPdf
  rw [e, hi]
  congr 2
  · simp [smul_mulVec, dotProduct]
    ring
  · simp [det_smul]
    ring

/-- C133: otherwise they do. Two models disagree about a position, and it is measured. Expressed in metres, the measurement makes the model
that predicted it the more probable one. Expressed in nanometres, the same measurement leaves both equally probable. -/
theorem C133_imm_units_matter : ∃ x' x'', twoModels.correct twoPositions position0 none = .ok x' ∧ 1 / 2 < x'.probs 0 ∧ x'.probs 1 < 1 / 2 ∧
    twoModels.correct twoPositions (inUnits position0 ((10 ^ 9 : ℝ) • (1 : Mat 1 1))) none = .ok x'' ∧ x''.probs 0 = 1 / 2 ∧ x''.probs 1 = 1 / 2 := by
  set M : Mat 1 1 := (10 ^ 9 : ℝ) • (1 : Mat 1 1) with hM
  have hdet : M.det = 10 ^ 9 := by simp [hM, det_smul]
  have hd : M.det ≠ 0 := by rw [hdet]; positivity
  have hl : ∀ i : Fin 2, ∃ s, correctLik (twoModels.kfs i) (twoPositions.states i) position0 none
      = .ok (s, Real.exp (-(((i : ℕ) : ℝ) ^ 2 / 4)) / Real.sqrt (4 * Real.pi)) := by
    intro i
    obtain ⟨s, hs⟩ := correctLik_linear walk1 (fun _ => 6) (1 : Mat 1 1) (1 : Mat 1 1) (one_pd 1) 0 0 (twoPositions.states i)
      PosSemidef.one rfl
    refine ⟨s, hs.trans ?_⟩
    congr 2
    have e : (0 : Vec 1) - (1 : Mat 1 1) *ᵥ (twoPositions.states i).state.value = fun _ => -((i : ℕ) : ℝ) := by
      funext j
      simp [twoPositions]
    rw [e]
    refine (pdf_two _).trans ?_
    rw [neg_sq]
  choose s hs using hl
  have h1 := seqFin_of hs
  have h2 : seqFin 2 (fun i => correctLik (twoModels.kfs i) (twoPositions.states i) (inUnits position0 M) none)
      = .ok fun i => (s i, |M.det|⁻¹ * (Real.exp (-(((i : ℕ) : ℝ) ^ 2 / 4)) / Real.sqrt (4 * Real.pi))) := by
    refine seqFin_of fun i => ?_
    rw [correctLik_units _ _ position0 hd, hs i]
    rfl
  have hp : ∀ i, predProb twoModels.trans twoPositions.probs i = 1 / 2 := by
    intro i
    unfold predProb
    rw [Fin.sum_univ_two]
    fin_cases i <;> simp [twoModels, twoPositions]
  have hsq1 : 1 ≤ Real.sqrt (4 * Real.pi) := Real.one_le_sqrt.2 (by nlinarith [Real.two_le_pi])
  have hsq2 : Real.sqrt (4 * Real.pi) ≤ 4 := Real.sqrt_le_iff.2 ⟨by norm_num, by linarith [Real.pi_le_four]⟩
  have hb : ∀ i : Fin 2, 0 ≤ Real.exp (-(((i : ℕ) : ℝ) ^ 2 / 4)) / Real.sqrt (4 * Real.pi) ∧
      Real.exp (-(((i : ℕ) : ℝ) ^ 2 / 4)) / Real.sqrt (4 * Real.pi) ≤ 1 := by
    intro i
    refine ⟨by positivity, ?_⟩
    rw [div_le_one (by linarith)]
    exact (Real.exp_le_one_iff.2 (neg_nonpos.2 (by positivity))).trans hsq1
  have hc : ∀ (y : Meas (Vec 1) 1) (r : Fin 2 → SWC (Vec 1) 1 × ℝ),
      seqFin 2 (fun i => correctLik (twoModels.kfs i) (twoPositions.states i) y none) = .ok r →
      twoModels.correct twoPositions y none = .ok ⟨fun i => (r i).1, renormalize fun i => (r i).2 * (1 / 2)⟩ := by
    intro y r h
    unfold Imm.correct
    rw [h]
    simp only [bind, Except.bind, hp]
    rfl
  set a : Fin 2 → ℝ := fun i => Real.exp (-(((i : ℕ) : ℝ) ^ 2 / 4)) / Real.sqrt (4 * Real.pi) with ha
  have ha0 : 1 / 4 ≤ a 0 := by
    have : a 0 = 1 / Real.sqrt (4 * Real.pi) := by simp [ha]
    rw [this]
    exact one_div_le_one_div_of_le (by linarith) hsq2
  have ha1 : a 1 < a 0 := by
    have e0 : a 0 = 1 / Real.sqrt (4 * Real.pi) := by simp [ha]
    have e1 : a 1 = Real.exp (-(1 / 4)) / Real.sqrt (4 * Real.pi) := by simp [ha]
    rw [e0, e1]
    exact div_lt_div_of_pos_right ((Real.exp_lt_exp.2 (by norm_num : -(1 / 4 : ℝ) < 0)).trans_eq Real.exp_zero) (by linarith)
  have hn1 : renormalize (fun i => a i * (1 / 2)) = fun i => a i * (1 / 2) / (a 0 * (1 / 2) + a 1 * (1 / 2)) := by
    unfold renormalize
    simp only []
    rw [if_neg]
    · funext i
      rw [Fin.sum_univ_two]
    · intro H
      have := (le_abs_self _).trans (H 0)
      norm_num at this
      linarith
  have hn2 : renormalize (fun i => |M.det|⁻¹ * a i * (1 / 2)) = fun _ => 1 / 2 := by
    unfold renormalize
    simp only []
    rw [if_pos]
    · funext i
      rw [Fin.sum_univ_two]
      norm_num
    · intro i
      have := hb i
      rw [hdet, abs_of_nonneg (by have := (hb i).1; positivity), abs_of_nonneg (by positivity)]
      have h3 : a i ≤ 1 := (hb i).2
      have h4 : 0 ≤ a i := (hb i).1
      norm_num
      linarith
  have hpos1 : 0 ≤ a 1 := (hb 1).1
  refine ⟨_, _, hc _ _ h1, ?_, ?_, hc _ _ h2, ?_, ?_⟩
  · show 1 / 2 < renormalize (fun i => a i * (1 / 2)) 0
    rw [hn1, lt_div_iff₀ (by linarith)]
    linarith
  · show renormalize (fun i => a i * (1 / 2)) 1 < 1 / 2
    rw [hn1, div_lt_iff₀ (by linarith)]
    linarith
  · exact congrFun hn2 0
  · exact congrFun hn2 1

/-- Non-vacuity of C133: centimetres. -/
example : (inUnits position0 ((100 : ℝ) • (1 : Mat 1 1))).value = position0.value ∧
    (inUnits position0 ((100 : ℝ) • (1 : Mat 1 1))).model.covariance = (fun _ => (10000 : ℝ) • (1 : Mat 1 1)) ∧
    ((100 : ℝ) • (1 : Mat 1 1)).det ≠ 0 := by
  refine ⟨?_, ?_, ?_⟩
  · show ((100 : ℝ) • (1 : Mat 1 1)) *ᵥ (0 : Vec 1) = 0
    rw [mulVec_zero]
  · funext x
    show ((100 : ℝ) • (1 : Mat 1 1)) * (1 : Mat 1 1) * ((100 : ℝ) • (1 : Mat 1 1))ᵀ = _
    rw [transpose_smul, transpose_one, Matrix.mul_one, Matrix.smul_mul, Matrix.mul_smul, Matrix.mul_one, smul_smul]
    norm_num
  · simp [det_smul]

/-- Non-vacuity of C133: the corrections of the example succeed and change the estimate. -/
example : ∃ x', env1.correct (est1 1) (inUnits (meas1 1) ((100 : ℝ) • (1 : Mat 1 1))) none none (some false) = .ok x' ∧
    x'.cov = (1 / 2 : ℝ) • (1 : Mat 1 1) := by
  have hd : ((100 : ℝ) • (1 : Mat 1 1)).det ≠ 0 := by simp [det_smul]
  have h := C133_units_ekf env1 (est1 1) (meas1 1) ((100 : ℝ) • (1 : Mat 1 1)) hd none none (some false)
  have hc := correct_linear walk1 false (fun _ => 6) (1 : Mat 1 1) (1 : Mat 1 1) (one_pd 1) (fun _ => 2) 1 (est1 1) PosSemidef.one rfl
  refine ⟨_, h.trans hc, ?_⟩
  show kCov (1 : Mat 1 1) 1 1 = _
  have hi : ((2 : ℝ) • (1 : Mat 1 1))⁻¹ = (2 : ℝ)⁻¹ • (1 : Mat 1 1) := by
    refine inv_eq_right_inv ?_
    rw [Matrix.smul_mul, Matrix.mul_smul, Matrix.mul_one, smul_smul]
    norm_num
  unfold kCov kGain
  simp only [transpose_one, Matrix.mul_one, Matrix.one_mul]
  rw [← two_smul ℝ (1 : Mat 1 1), hi]
  ext i j
  fin_cases i; fin_cases j
  norm_num

end Verif
