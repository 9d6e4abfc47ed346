import Verif.Lemmas.Cholesky
import Verif.Lemmas.FilterSim
import Verif.Props.Units

/-!
C139: only the ratios of the noise covariances matter to the estimates.
-/

set_option linter.unusedSectionVars false
set_option linter.unusedVariables false
set_option linter.unusedSimpArgs false

namespace Verif

open Matrix

variable {V U : Type} {n : ℕ}

/-! ### Specification -/

/-- The process model with its noise covariance multiplied by `s`. -/
def noisierProc (s : ℝ) (p : ProcModel V U n) : ProcModel V U n where
  evaluate := p.evaluate
  jacobian := p.jacobian
  covariance x u dt := s • p.covariance x u dt

/-- The measurement with its noise covariance multiplied by `s`. -/
def noisierMeas (s : ℝ) (y : Meas V n) : Meas V n where
  m := y.m
  value := y.value
  stamp := y.stamp
  model :=
    { evaluate := y.model.evaluate
      jacobian := y.model.jacobian
      covariance := fun x => s • y.model.covariance x }

/-- The estimate with its covariance multiplied by `s`. -/
def noisier (s : ℝ) (x : SWC V n) : SWC V n := ⟨x.state, s • x.cov⟩

/-- The extended Kalman filter with the noisier process model. -/
def noisierEkf (s : ℝ) (e : EkfEnv V U n) : EkfEnv V U n where
  proc := noisierProc s e.proc
  rejectOutliers := e.rejectOutliers
  plus := e.plus
  chi2ppf99 := e.chi2ppf99

/-- The iterated filter with the noisier process model. -/
def noisierIekf (s : ℝ) (f : IekfEnv V U n) : IekfEnv V U n where
  toEkfEnv := noisierEkf s f.toEkfEnv
  stepTol := f.stepTol
  maxIters := f.maxIters
  lineSearch := f.lineSearch
  minus := f.minus
  plusJac := f.plusJac

/-- A time-stamped measurement with its noise covariance multiplied by `s`. -/
def noisierStMeas (s : ℝ) (y : StMeas V n) : StMeas V n where
  meas := noisierMeas s y.meas
  stamp := y.stamp
  hstamp := y.hstamp

/-! ### Matrices -/

theorem symmetrize_smul {m : ℕ} (s : ℝ) (P : Mat m m) : symmetrize (s • P) = s • symmetrize P := by
  unfold symmetrize
  rw [transpose_smul, ← smul_add, smul_comm]

theorem det_smul_zero {m : ℕ} {s : ℝ} (hs : s ≠ 0) (A : Mat m m) : (s • A).det = 0 ↔ A.det = 0 := by
  rw [det_smul, mul_eq_zero]
  exact ⟨fun h => h.resolve_left (pow_ne_zero _ hs), Or.inr⟩

theorem inv_smul_det {m : ℕ} {s : ℝ} (hs : s ≠ 0) {A : Mat m m} (h : A.det ≠ 0) : (s • A)⁻¹ = s⁻¹ • A⁻¹ := by
  refine Matrix.inv_eq_right_inv ?_
  rw [Matrix.smul_mul, Matrix.mul_smul, smul_smul, mul_inv_cancel₀ hs, one_smul, mul_nonsing_inv _ (unit_of_det h)]

theorem npInv_smul {m : ℕ} {s : ℝ} (hs : s ≠ 0) (A : Mat m m) : npInv (s • A) = (npInv A).map fun B => (s⁻¹ • B : Mat m m) := by
  unfold npInv
  by_cases h : A.det = 0
  · rw [if_pos h, if_pos ((det_smul_zero hs A).2 h)]; rfl
  · rw [if_neg h, if_neg (mt (det_smul_zero hs A).1 h), inv_smul_det hs h]; rfl

theorem solve_smul {m : ℕ} {k : Type} {s : ℝ} (hs : s ≠ 0) (A : Mat m m) (B : Matrix (Fin m) k ℝ) :
    solve (s • A) (s • B) = solve A B := by
  unfold solve
  by_cases h : A.det = 0
  · rw [if_pos h, if_pos ((det_smul_zero hs A).2 h)]
  · rw [if_neg h, if_neg (mt (det_smul_zero hs A).1 h), inv_smul_det hs h, Matrix.smul_mul, Matrix.mul_smul, smul_smul,
      inv_mul_cancel₀ hs, one_smul]

theorem innov_smul {m : ℕ} (s : ℝ) (G : Mat m n) (P : Mat n n) (R : Mat m m) :
    G * (s • P) * Gᵀ + s • R = s • (G * P * Gᵀ + R) := by
  rw [Matrix.mul_smul, Matrix.smul_mul, smul_add]

theorem gain_smul {m : ℕ} {s : ℝ} (hs : s ≠ 0) (S : Mat m m) (G : Mat m n) (P : Mat n n) :
    solve (s • S)ᵀ ((s • P) * Gᵀ)ᵀ = solve Sᵀ (P * Gᵀ)ᵀ := by
  rw [transpose_smul, Matrix.smul_mul, transpose_smul]
  exact solve_smul hs _ _

/-! ### The extended Kalman filter -/

theorem propagate_noisier (s : ℝ) (e : EkfEnv V U n) (x : SWC V n) (u : Inp U) (t dt : ℝ) (xj : St V) :
    (noisierEkf s e).propagate (noisier s x) u t dt xj = noisier s (e.propagate x u t dt xj) := by
  show (⟨_, symmetrize (e.proc.jacobian x.state u dt * (s • x.cov) * (e.proc.jacobian x.state u dt)ᵀ + s • e.proc.covariance xj u dt)⟩ : SWC V n) = ⟨_, _⟩
  rw [innov_smul, symmetrize_smul]
  rfl

/-- **C139, prediction.** -/
theorem C139_predict (s : ℝ) (e : EkfEnv V U n) (x : SWC V n) (u : Option (Inp U)) (dt : Option ℝ) (xjac : Option (St V)) :
    (noisierEkf s e).predict (noisier s x) u dt xjac = (e.predict x u dt xjac).map (noisier s) := by
  unfold EkfEnv.predict
  show (predictTime x.state.stamp u dt >>= _) = _
  cases predictTime x.state.stamp u dt with
  | error => rfl
  | ok p =>
    cases u with
    | none => rfl
    | some u => exact congrArg Except.ok (propagate_noisier s e x u p.1 p.2 _)

theorem advance_noisier (s : ℝ) (e : EkfEnv V U n) (x : SWC V n) (y : Meas V n) (u : Option (Inp U)) :
    (noisierEkf s e).advance (noisier s x) (noisierMeas s y) u = (e.advance x y u).map (noisier s) := by
  obtain ⟨⟨v, st⟩, P⟩ := x
  obtain ⟨m, val, ty, mod⟩ := y
  have hp := fun (x : SWC V n) (u : Inp U) (dt : ℝ) => C139_predict s e x (some u) (some dt) none
  cases st with
  | none =>
    cases ty with
    | none => rfl
    | some ty =>
      unfold EkfEnv.advance
      show (if _ then _ else _) = Except.map _ (if _ then _ else _)
      split
      · rfl
      · cases u with
        | none => rfl
        | some u =>
          show (if _ then _ else _) = Except.map _ (if _ then _ else _)
          split
          · exact hp ⟨⟨v, some ty⟩, P⟩ u (ty - ty)
          · rfl
  | some tx =>
    cases ty with
    | none => rfl
    | some ty =>
      unfold EkfEnv.advance
      show (if _ then _ else _) = Except.map _ (if _ then _ else _)
      split
      · rfl
      · cases u with
        | none => rfl
        | some u =>
          show (if _ then _ else _) = Except.map _ (if _ then _ else _)
          split
          · exact hp _ _ _
          · rfl

theorem fuseCore_noisier {s : ℝ} (hs : s ≠ 0) (e : EkfEnv V U n) (x : SWC V n) {m : ℕ} (z : Vec m) (G : Mat m n) (R : Mat m m) :
    fuseCore (noisierEkf s e) (noisier s x) z G (s • R) false = (fuseCore e x z G R false).map (noisier s) := by
  unfold fuseCore
  simp only [Bool.false_eq_true, if_false, bind, Except.bind, noisier]
  rw [innov_smul, gain_smul hs]
  cases solve _ _ with
  | error => rfl
  | ok Kt =>
    show Except.ok _ = Except.ok _
    simp only [Matrix.mul_smul, symmetrize_smul]
    rfl

theorem fuse_noisier {s : ℝ} (hs : s ≠ 0) (e : EkfEnv V U n) (x : SWC V n) (y : Meas V n) (xjac : Option (St V)) :
    ((noisierEkf s e).fuse (noisier s x) (noisierMeas s y) xjac false).map Prod.fst =
      ((e.fuse x y xjac false).map Prod.fst).map (noisier s) := by
  cases hy : y.model.evaluate x.state with
  | none => rw [fuse_none e x y xjac _ hy, fuse_none (noisierEkf s e) (noisier s x) (noisierMeas s y) xjac _ hy]; rfl
  | some yc =>
    rw [fuse_core_jac e x y xjac _ yc hy, fuse_core_jac (noisierEkf s e) (noisier s x) (noisierMeas s y) xjac _ yc hy]
    exact fuseCore_noisier hs e x (fun i => y.value i - yc i) (y.model.jacobian x.state) (y.model.covariance (xjac.getD x.state))

/-- **C139, correction.** -/
theorem C139_correct {s : ℝ} (hs : s ≠ 0) (e : EkfEnv V U n) (x : SWC V n) (y : Meas V n) (u : Option (Inp U)) (xjac : Option (St V))
    (reject : Option Bool) (hr : reject.getD e.rejectOutliers = false) :
    (noisierEkf s e).correct (noisier s x) (noisierMeas s y) u xjac reject = (e.correct x y u xjac reject).map (noisier s) := by
  have hr' : reject.getD (noisierEkf s e).rejectOutliers = false := hr
  unfold EkfEnv.correct EkfEnv.correctD
  rw [advance_noisier, hr, hr']
  cases e.advance x y u with
  | error => rfl
  | ok xp => exact fuse_noisier hs e xp y xjac

/-! ### The iterated extended Kalman filter -/

theorem gnCost_noisier {m : ℕ} (s : ℝ) (Pinv : Mat n n) (Rinv : Mat m m) (e : Vec n) (z : Vec m) :
    gnCost (s • Pinv) (s • Rinv) e z = s * gnCost Pinv Rinv e z := by
  unfold gnCost
  rw [smul_mulVec, smul_mulVec, dotProduct_smul, dotProduct_smul, smul_eq_mul, smul_eq_mul]
  ring

theorem lineSearch_noisier {s : ℝ} (hs : 0 < s) (f : IekfEnv V U n) (x : SWC V n) {m : ℕ} (v : Vec m) (st : Option ℝ) (mod : MeasModel V n m)
    (xop : St V) (dx : Vec n) (Pinv : Mat n n) (Rinv : Mat m m) (c : ℝ) : ∀ (fuel : ℕ) (a : ℝ),
    (noisierIekf s f).lineSearchLoop (noisier s x) (noisierMeas s ⟨m, v, st, mod⟩) xop dx (s⁻¹ • Pinv) (s⁻¹ • Rinv) (s⁻¹ * c) fuel a
      = f.lineSearchLoop x ⟨m, v, st, mod⟩ xop dx Pinv Rinv c fuel a
  | 0, a => rfl
  | fuel + 1, a => by
    have ih := lineSearch_noisier hs f x v st mod xop dx Pinv Rinv c fuel (a * (9 / 10))
    by_cases ha : a > f.stepTol
    · refine (if_pos ha).trans (Eq.trans ?_ (if_pos ha).symm)
      simp only [ih]
      have e1 : (noisierIekf s f).plusSt xop (a • dx) = f.plusSt xop (a • dx) := rfl
      have e2 : ∀ w, measMinus (noisierMeas s ⟨m, v, st, mod⟩).value ((noisierMeas s ⟨m, v, st, mod⟩).model.evaluate w) =
        measMinus v (mod.evaluate w) := fun _ => rfl
      rw [e1, e2]
      cases measMinus v (mod.evaluate (f.plusSt xop (a • dx))) with
      | error => rfl
      | ok z =>
        refine Eq.trans (b := if gnCost (s⁻¹ • Pinv) (s⁻¹ • Rinv) (f.minus (f.plusSt xop (a • dx)).value x.state.value) z < s⁻¹ * c
          then Except.ok (some (f.plusSt xop (a • dx))) else f.lineSearchLoop x ⟨m, v, st, mod⟩ xop dx Pinv Rinv c fuel (a * (9 / 10))) rfl ?_
        have h1 : (gnCost (s⁻¹ • Pinv) (s⁻¹ • Rinv) (f.minus (f.plusSt xop (a • dx)).value x.state.value) z < s⁻¹ * c) =
            (gnCost Pinv Rinv (f.minus (f.plusSt xop (a • dx)).value x.state.value) z < c) := by
          rw [gnCost_noisier, mul_lt_mul_iff_right₀ (inv_pos.2 hs)]
        simp only [h1]
        rfl
    · exact (if_neg ha).trans (if_neg ha).symm

theorem passCore_noisier {s : ℝ} (hs : s ≠ 0) (f : IekfEnv V U n) (x : SWC V n) (xop : St V) {m : ℕ} (R : Mat m m)
    (G : Mat m n) (z : Vec m) (search search' : Vec n → Mat n n → Mat m m → ℝ → Except Err (Option (St V)))
    (hse : ∀ dx Pi Ri c, search' dx (s⁻¹ • Pi) (s⁻¹ • Ri) (s⁻¹ * c) = search dx Pi Ri c) :
    passCore (noisierIekf s f) (noisier s x) false xop (s • R) G z search' = passCore f x false xop R G z search := by
  unfold passCore
  simp only [bind, Except.bind]
  have e0 : npInv (noisier s x).cov = (npInv x.cov).map fun B => (s⁻¹ • B : Mat n n) := npInv_smul hs x.cov
  rw [e0]
  cases npInv x.cov with
  | error => rfl
  | ok Pinv =>
    simp only [Except.map]
    rw [npInv_smul hs]
    cases npInv R with
    | error => rfl
    | ok Rinv =>
      simp only [Except.map]
      have e1 : ∀ J : Mat n n, J * (noisier s x).cov * Jᵀ = s • (J * x.cov * Jᵀ) := by
        intro J
        show J * (s • x.cov) * Jᵀ = _
        rw [Matrix.mul_smul, Matrix.smul_mul]
      simp only [e1, innov_smul, symmetrize_smul, gnCost_noisier]
      rw [gain_smul hs]
      simp only [hse]
      rfl

theorem gnPass_noisier {s : ℝ} (hs : 0 < s) (f : IekfEnv V U n) (fuel : ℕ) (x : SWC V n) (y : Meas V n) (xop : St V) :
    (noisierIekf s f).gnPass fuel (noisier s x) (noisierMeas s y) false xop = f.gnPass fuel x y false xop := by
  obtain ⟨m, v, st, mod⟩ := y
  have h1 : ∀ z : Vec m, passCore (noisierIekf s f) (noisier s x) false xop (s • mod.covariance xop) (mod.jacobian xop) z
      (fun dx Pi Ri c => (noisierIekf s f).lineSearchLoop (noisier s x) (noisierMeas s ⟨m, v, st, mod⟩) xop dx Pi Ri c fuel 1)
      = passCore f x false xop (mod.covariance xop) (mod.jacobian xop) z
      (fun dx Pi Ri c => f.lineSearchLoop x ⟨m, v, st, mod⟩ xop dx Pi Ri c fuel 1) := fun z =>
    passCore_noisier hs.ne' f x xop _ _ z _ _ (fun dx Pi Ri c => lineSearch_noisier hs f x v st mod xop dx Pi Ri c fuel 1)
  rw [gnPass_core f fuel x ⟨m, v, st, mod⟩]
  refine (gnPass_core (noisierIekf s f) fuel (noisier s x) (noisierMeas s ⟨m, v, st, mod⟩) false xop).trans ?_
  show (measMinus v (mod.evaluate xop)).bind _ = _
  cases measMinus v (mod.evaluate xop) with
  | error err => exact Eq.trans (b := Except.error err) rfl rfl
  | ok z => exact Eq.trans (Eq.trans rfl (h1 z)) rfl

theorem gnLoop_noisier {s : ℝ} (hs : 0 < s) (f : IekfEnv V U n) (fuel : ℕ) (x : SWC V n) (y : Meas V n) (k : ℕ) :
    ∀ (xop : St V) (tr : List (St V)), (noisierIekf s f).gnLoop fuel (noisier s x) (noisierMeas s y) false k xop tr =
      f.gnLoop fuel x y false k xop tr := by
  induction k with
  | zero => intro xop tr; rw [IekfEnv.gnLoop, IekfEnv.gnLoop]
  | succ k ih =>
    intro xop tr
    rw [IekfEnv.gnLoop, IekfEnv.gnLoop, gnPass_noisier hs f fuel x y]
    simp only [ih]

theorem finish_noisier {s : ℝ} (hs : s ≠ 0) (f : IekfEnv V U n) (x : SWC V n) (y : Meas V n) (xjac : Option (St V)) (xop : St V) :
    (noisierIekf s f).finish (noisier s x) (noisierMeas s y) xjac xop = (f.finish x y xjac xop).map (noisier s) := by
  rw [finish_core, finish_core]
  show finishCore (noisierIekf s f) (noisier s x) xop (s • y.model.covariance (xjac.getD xop)) (y.model.jacobian (xjac.getD xop)) = _
  generalize y.model.covariance (xjac.getD xop) = R
  generalize y.model.jacobian (xjac.getD xop) = G
  unfold finishCore
  simp only [bind, Except.bind]
  have e1 : ∀ J : Mat n n, J * (noisier s x).cov * Jᵀ = s • (J * x.cov * Jᵀ) := by
    intro J
    show J * (s • x.cov) * Jᵀ = _
    rw [Matrix.mul_smul, Matrix.smul_mul]
  simp only [e1, innov_smul, symmetrize_smul]
  rw [gain_smul hs]
  have e2 : (noisierIekf s f).minus xop.value (noisier s x).state.value = f.minus xop.value x.state.value := rfl
  have e3 : (noisierIekf s f).plusJac = f.plusJac := rfl
  rw [e2, e3]
  cases solve _ _ with
  | error => rfl
  | ok Kt =>
    simp only [Except.map, Matrix.mul_smul]
    rfl

theorem advanceI_noisier (s : ℝ) (f : IekfEnv V U n) (x : SWC V n) (y : Meas V n) (u : Option (Inp U)) :
    (noisierIekf s f).advanceI (noisier s x) (noisierMeas s y) u = (f.advanceI x y u).map (noisier s) := by
  obtain ⟨⟨v, st⟩, P⟩ := x
  obtain ⟨m, val, ty, mod⟩ := y
  have hp := fun (x : SWC V n) (u : Inp U) (dt : ℝ) => C139_predict s f.toEkfEnv x (some u) (some dt) none
  cases st with
  | none =>
    cases ty with
    | none => rfl
    | some ty =>
      unfold IekfEnv.advanceI
      show (if _ then _ else _) = Except.map _ (if _ then _ else _)
      split
      · rfl
      · cases u with
        | none => rfl
        | some u =>
          show (if _ then _ else _) = Except.map _ (if _ then _ else _)
          split
          · exact hp ⟨⟨v, some ty⟩, P⟩ u (ty - ty)
          · rfl
  | some tx =>
    cases ty with
    | none => rfl
    | some ty =>
      unfold IekfEnv.advanceI
      show (if _ then _ else _) = Except.map _ (if _ then _ else _)
      split
      · rfl
      · cases u with
        | none => rfl
        | some u =>
          show (if _ then _ else _) = Except.map _ (if _ then _ else _)
          split
          · exact hp _ _ _
          · rfl

/-- **C139, iterated filter.** The iterates are the same, too. -/
theorem C139_iekf {s : ℝ} (hs : 0 < s) (f : IekfEnv V U n) (fuel : ℕ) (x : SWC V n) (y : Meas V n) (u : Option (Inp U))
    (xjac : Option (St V)) (reject : Option Bool) (hr : reject.getD f.rejectOutliers = false) :
    (noisierIekf s f).correctT fuel (noisier s x) (noisierMeas s y) u xjac reject =
      (f.correctT fuel x y u xjac reject).map fun r => (noisier s r.1, r.2) := by
  have hr' : reject.getD (noisierIekf s f).rejectOutliers = false := hr
  unfold IekfEnv.correctT
  rw [advanceI_noisier, hr, hr']
  cases f.advanceI x y u with
  | error => rfl
  | ok xp =>
    show (noisierIekf s f).fuseI fuel (noisier s xp) (noisierMeas s y) xjac false = _
    show _ = (f.fuseI fuel xp y xjac false).map _
    unfold IekfEnv.fuseI
    have e1 : (noisierIekf s f).maxIters = f.maxIters := rfl
    have e2 : (noisier s xp).state = xp.state := rfl
    rw [e1, e2]
    by_cases h0 : f.maxIters = 0
    · rw [if_pos h0, if_pos h0]; rfl
    · rw [if_neg h0, if_neg h0, gnLoop_noisier hs]
      cases f.gnLoop fuel xp y false f.maxIters xp.state [] with
      | error => rfl
      | ok r =>
        obtain ⟨o, xop, tr⟩ := r
        have hc : (noisierIekf s f).conclude (noisier s xp) (noisierMeas s y) xjac o xop = (f.conclude xp y xjac o xop).map (noisier s) := by
          unfold IekfEnv.conclude
          cases o
          · exact finish_noisier hs.ne' f xp y xjac xop
          · rfl
        show ((noisierIekf s f).conclude (noisier s xp) (noisierMeas s y) xjac o xop >>= _) =
          Except.map _ (f.conclude xp y xjac o xop >>= _)
        rw [hc]
        cases f.conclude xp y xjac o xop with
        | error => rfl
        | ok x' =>
          show Except.ok _ = Except.ok _
          congr 2
          show (⟨x'.state, symmetrize (s • x'.cov)⟩ : SWC V n) = ⟨x'.state, s • symmetrize x'.cov⟩
          rw [symmetrize_smul]

theorem correctI_noisier {s : ℝ} (hs : 0 < s) (f : IekfEnv V U n) (fuel : ℕ) (x : SWC V n) (y : Meas V n) (u : Option (Inp U))
    (xjac : Option (St V)) (reject : Option Bool) (hr : reject.getD f.rejectOutliers = false) :
    (noisierIekf s f).correctI fuel (noisier s x) (noisierMeas s y) u xjac reject = (f.correctI fuel x y u xjac reject).map (noisier s) := by
  unfold IekfEnv.correctI
  rw [C139_iekf hs f fuel x y u xjac reject hr]
  cases f.correctT fuel x y u xjac reject <;> rfl

/-! ### Whole runs -/

theorem run_noisier {X I : Type} {api api' : FilterApi X I (StMeas V n)} (ν : X → X) (s : ℝ)
    (hx : ∀ x, api'.xstamp (ν x) = api.xstamp x) (hi : api'.istamp = api.istamp) (hy : ∀ y, api'.ystamp (noisierStMeas s y) = api.ystamp y)
    (hp : ∀ x u dt, api'.predict (ν x) u dt = (api.predict x u dt).map ν)
    (hc : ∀ x y u, api'.correct (ν x) (noisierStMeas s y) u = (api.correct x y u).map ν) (x0 : X) (ins : List I) (meas : List (StMeas V n)) :
    runFilter api' (ν x0) ins (meas.map (noisierStMeas s)) = (runFilter api x0 ins meas).map (List.map ν) := by
  have hsim : FilterSim api api' 0 (fun x x' => x' = ν x) Eq (fun y y' => y' = noisierStMeas s y) := by
    refine ⟨?_, ?_, ?_, ?_, ?_⟩
    · rintro x _ rfl
      rw [hx]
      cases api.xstamp x <;> simp
    · rintro u _ rfl; rw [hi]; exact (add_zero _).symm
    · rintro y _ rfl
      rw [hy]
      exact (add_zero _).symm
    · rintro x _ u _ dt rfl rfl
      rw [hp]
      cases api.predict x u dt with
      | error => rfl
      | ok a => rfl
    · rintro x _ u _ y _ rfl rfl rfl
      rw [hc]
      cases api.correct x y u with
      | error => rfl
      | ok a => rfl
  have h := hsim.runFilter (x0 := x0) (x0' := ν x0) rfl (ins := ins) (ins' := ins)
    (List.forall₂_same.mpr fun _ _ => rfl) (meas := meas) (meas' := meas.map (noisierStMeas s))
    (by
      rw [List.forall₂_map_right_iff]
      exact List.forall₂_same.mpr fun _ _ => rfl)
  revert h
  cases runFilter api x0 ins meas with
  | error e =>
    cases runFilter api' (ν x0) ins (meas.map (noisierStMeas s)) with
    | error e' => intro h; exact congrArg Except.error (show e = e' from h).symm
    | ok b => intro h; exact h.elim
  | ok a =>
    cases runFilter api' (ν x0) ins (meas.map (noisierStMeas s)) with
    | error e' => intro h; exact h.elim
    | ok b =>
      intro h
      refine congrArg Except.ok ?_
      have h' : List.Forall₂ (fun x x' => x' = ν x) a b := h
      clear h
      induction h' with
      | nil => rfl
      | cons hab _ ih => rw [List.map_cons, hab, ih]

/-- **C139, runs.** `run_filter` with the extended or the iterated Kalman filter, without outlier rejection: if the initial covariance and
the covariances of the process and the measurement noises are all multiplied by `s`, then the states are the same and the covariances are
multiplied by `s`. -/
theorem C139_run {s : ℝ} (hs : 0 < s) (x0 : SWC V n) (ins : List (StInp U)) (meas : List (StMeas V n)) :
    (∀ e : EkfEnv V U n, e.rejectOutliers = false →
      runFilter (ekfApi (noisierEkf s e)) (noisier s x0) ins (meas.map (noisierStMeas s)) =
        (runFilter (ekfApi e) x0 ins meas).map (List.map (noisier s))) ∧
    (∀ (f : IekfEnv V U n) (fuel : ℕ), f.rejectOutliers = false →
      runFilter (iekfApi (noisierIekf s f) fuel) (noisier s x0) ins (meas.map (noisierStMeas s)) =
        (runFilter (iekfApi f fuel) x0 ins meas).map (List.map (noisier s))) :=
  ⟨fun e he => run_noisier (api := ekfApi e) (api' := ekfApi (noisierEkf s e)) (noisier s) s (fun _ => rfl) rfl (fun _ => rfl)
      (fun x u dt => C139_predict s e x _ _ _) (fun x y u => C139_correct hs.ne' e x y.meas _ _ _ he) x0 ins meas,
   fun f fuel hf => run_noisier (api := iekfApi f fuel) (api' := iekfApi (noisierIekf s f) fuel) (noisier s) s (fun _ => rfl) rfl
      (fun _ => rfl) (fun x u dt => C139_predict s f.toEkfEnv x _ _ _)
      (fun x y u => correctI_noisier hs f fuel x y.meas _ _ _ hf) x0 ins meas⟩

end Verif
