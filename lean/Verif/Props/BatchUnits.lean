import Verif.Lemmas.ProbRot
import Verif.Lemmas.FilterSim
import Verif.Props.Units
import Verif.Props.Residuals
import Verif.Props.PerfectBatch2
import Verif.Props.BatchGaps

/-!
C136: batch estimation does not depend on the units of the measurements, nor on which square root of the information whitens a residual.
-/

set_option linter.unusedVariables false
set_option linter.unusedSectionVars false
set_option linter.unusedSimpArgs false

namespace Verif

open Matrix

variable {V U : Type} {n : ℕ}

/-! ### Any square root of the information -/

/-- **C136, whitening.** Replace each residual of a problem that has not been solved by the same residual premultiplied by an orthogonal
matrix (which may differ from point to point), e.g. because another square root of the information matrix whitens it: `solve` succeeds as
before, with the same variables, the same cost after every iteration and the same covariance blocks. -/
theorem C136_whitening {K S : Type} [DecidableEq K] {o : VarOps S} {P Q : Prob K S} {rs : List (Residual K S)}
    (hr : List.Forall₂ Rotated P.residuals rs) (hkeys : (P.varsInit.map Prod.fst).Nodup)
    (hlen : P.losses.length = P.residuals.length)
    (hfresh : P.varSlices = [] ∧ P.cov = none ∧ P.info = none ∧ P.costHistory = []) (h : P.solve o = .ok Q) :
    ∃ Q', ({ P with residuals := rs } : Prob K S).solve o = .ok Q' ∧ Q'.vars = Q.vars ∧ Q'.costHistory = Q.costHistory ∧
      ∀ (k1 k2 : K) (r : Option DMat × Prob K S), Q.getCovarianceBlock k1 k2 = .ok r →
        ∃ r', Q'.getCovarianceBlock k1 k2 = .ok r' ∧ SameBlock r.1 r'.1 :=
  solve_rot hr hkeys hlen hfresh h

/-! ### A measurement residual in other units -/

theorem pd_units {m : ℕ} {M : Mat m m} (h : M.det ≠ 0) {R : Mat m m} (hR : R.PosDef) : (M * R * Mᵀ).PosDef := by
  have := hR.mul_mul_conjTranspose_same (B := M) (by
    intro u v huv
    have h1 : (u ᵥ* M) ᵥ* M⁻¹ = (v ᵥ* M) ᵥ* M⁻¹ := congrArg (· ᵥ* M⁻¹) huv
    rwa [vecMul_vecMul, vecMul_vecMul, mul_nonsing_inv _ (unit_of_det h), vecMul_one, vecMul_one] at h1)
  rwa [conjTranspose_eq_transpose_of_trivial] at this

/-- Two square roots of the information differ by an orthogonal matrix. -/
theorem roots_rot {m : ℕ} {M R L L' : Mat m m} (h : M.det ≠ 0) (hR : R.PosDef) (hL : L * Lᵀ = R⁻¹)
    (hL' : L' * L'ᵀ = (M * R * Mᵀ)⁻¹) : ∃ Q : Mat m m, Qᵀ * Q = 1 ∧ Q * Lᵀ = L'ᵀ * M := by
  have hu := unit_of_det h
  have hdL : Lᵀ.det ≠ 0 := by
    intro h0
    have : (L * Lᵀ).det = 0 := by rw [det_mul, h0, mul_zero]
    rw [hL] at this
    exact pd_det hR.inv this
  have huL := unit_of_det hdL
  refine ⟨L'ᵀ * M * Lᵀ⁻¹, ?_, ?_⟩
  · have e1 : (L'ᵀ * M * Lᵀ⁻¹)ᵀ * (L'ᵀ * M * Lᵀ⁻¹) = (Lᵀ⁻¹)ᵀ * (Mᵀ * (L' * L'ᵀ) * M) * Lᵀ⁻¹ := by
      simp only [transpose_mul, transpose_transpose, Matrix.mul_assoc]
    have hMt : Mᵀ * M⁻¹ᵀ = 1 := by rw [← transpose_mul, nonsing_inv_mul _ hu, transpose_one]
    have e2 : Mᵀ * (L' * L'ᵀ) * M = L * Lᵀ := by
      rw [hL', inv_units, hL, Matrix.mul_assoc M⁻¹ᵀ, ← Matrix.mul_assoc Mᵀ, hMt, Matrix.one_mul, Matrix.mul_assoc,
        nonsing_inv_mul _ hu, Matrix.mul_one]
    have e3 : (Lᵀ⁻¹)ᵀ * L = 1 := by
      have := congrArg transpose (mul_nonsing_inv _ huL)
      rwa [transpose_mul, transpose_transpose, transpose_one] at this
    rw [e1, e2, ← Matrix.mul_assoc, e3, Matrix.one_mul, mul_nonsing_inv _ huL]
  · rw [Matrix.mul_assoc, nonsing_inv_mul _ huL, Matrix.mul_one]

theorem ofMat_rot {m k : ℕ} (Q : Mat m m) (f : Bool) (A : Mat m k) (B : Mat m k) (h : B = Q * A) :
    RotJac Q ((whenAsked f A).map DMat.ofMat) ((whenAsked f B).map DMat.ofMat) := by
  subst h
  cases f with
  | false => exact .none
  | true =>
    refine .some _ _ rfl rfl rfl fun i j hj => ?_
    have hj' : j < k := hj
    show (if h : i.val < m ∧ j < k then (Q * A) ⟨i.val, h.1⟩ ⟨j, h.2⟩ else 0) = _
    rw [dif_pos ⟨i.2, hj'⟩, Matrix.mul_apply]
    refine Finset.sum_congr rfl fun q _ => ?_
    show Q i q * A q ⟨j, hj'⟩ = Q i q * (if h : q.val < m ∧ j < k then A ⟨q.val, h.1⟩ ⟨j, h.2⟩ else 0)
    rw [dif_pos ⟨q.2, hj'⟩]

/-- `MeasurementResidual.evaluate` on what the model returned. -/
noncomputable def measResCore {m : ℕ} (z : Vec m) (G : Mat m n) (R : Mat m m) (len : ℕ) (cj : Option (List Bool)) : Except Err (ResOut m n) := do
  let L ← sqrtInformation R
  let e := Lᵀ *ᵥ z
  if truthy cj then do
    let f ← pyGet (cj.getD []) 0
    return ⟨e, some (whenAsked f (-Lᵀ * G) :: List.replicate (len - 1) none)⟩
  else return ⟨e, none⟩

theorem measurementResidual_core (y : Meas V n) (xs : List (St V)) (cj : Option (List Bool)) {x : St V} (hx : pyGet xs 0 = .ok x)
    {yc : Vec y.m} (h : y.model.evaluate x = some yc) : measurementResidual y xs cj =
      measResCore (fun i => y.value i - yc i) (y.model.jacobian x) (y.model.covariance x) xs.length cj := by
  unfold measurementResidual
  rw [hx, ok_bindE, h]
  rfl

theorem meas_rot (k : ℕ) (y : Meas V n) {M : Mat y.m y.m} (h : M.det ≠ 0)
    (hs : ∀ x, (y.model.covariance x)ᵀ = y.model.covariance x) :
    Rotated (toResidual [k] (measurementResidual y)) (toResidual [k] (measurementResidual (inUnits y M))) := by
  refine .rot y.m _ _ rfl fun xs err he => ?_
  have he' : ((measurementResidual y xs none).map fun r => List.ofFn r.error) = .ok err := he
  unfold measurementResidual at he'
  cases hx : (pyGet xs 0 : Except Err (St V)) with
  | error e => rw [hx] at he'; cases he'
  | ok x =>
    rw [hx, ok_bindE] at he'
    cases hyc : y.model.evaluate x with
    | none => rw [hyc] at he'; cases he'
    | some yc =>
      rw [hyc] at he'
      cases hL : sqrtInformation (y.model.covariance x) with
      | error e => simp only [hL] at he'; cases he'
      | ok L =>
        simp only [hL, ok_bindE, truthy, Bool.false_eq_true, if_false] at he'
        cases he'
        obtain ⟨hpd, hLL⟩ := sqrtInformation_ok (hs x) hL
        obtain ⟨L', hL', hLL'⟩ := sqrtInformation_pd (pd_units h hpd)
        obtain ⟨Q, q1, q2⟩ := roots_rot h hpd hLL hLL'
        have hev : (inUnits y M).model.evaluate x = some (M *ᵥ yc) := evaluate_units_some y M x yc hyc
        have hcov : sqrtInformation ((inUnits y M).model.covariance x) = .ok L' := hL'
        have herr : L'ᵀ *ᵥ (fun i => (inUnits y M).value i - (M *ᵥ yc) i : Vec y.m) = Q *ᵥ (Lᵀ *ᵥ fun i => y.value i - yc i) := by
          rw [innovation_units, mulVec_mulVec, ← q2, ← mulVec_mulVec]
        refine ⟨by simp, Q, q1, ?_, fun fl js hj => ?_⟩
        · show ((measurementResidual (inUnits y M) xs none).map fun r => List.ofFn r.error) = _
          rw [measurementResidual_core (inUnits y M) xs none hx hev]
          show ((measResCore (m := y.m) (fun i => (inUnits y M).value i - (M *ᵥ yc) i) (M * y.model.jacobian x)
            (M * y.model.covariance x * Mᵀ) xs.length none).map fun r => List.ofFn r.error) = _
          unfold measResCore
          rw [hL', ok_bindE, herr]
          show Except.ok (List.ofFn (Q *ᵥ (Lᵀ *ᵥ fun i => y.value i - yc i))) = _
          congr 3
          funext i
          simp
        · have hj' : ((measurementResidual y xs (some fl)).map fun r => (r.jacobians.getD []).map (Option.map DMat.ofMat)) = .ok js := hj
          show ∃ js', ((measurementResidual (inUnits y M) xs (some fl)).map fun r => (r.jacobians.getD []).map (Option.map DMat.ofMat)) =
            .ok js' ∧ _
          rw [measurementResidual_core y xs (some fl) hx hyc] at hj'
          rw [measurementResidual_core (inUnits y M) xs (some fl) hx hev]
          show ∃ js', ((measResCore (m := y.m) (fun i => (inUnits y M).value i - (M *ᵥ yc) i) (M * y.model.jacobian x)
            (M * y.model.covariance x * Mᵀ) xs.length (some fl)).map fun r => (r.jacobians.getD []).map (Option.map DMat.ofMat)) =
            .ok js' ∧ _
          unfold measResCore at hj' ⊢
          rw [hL, ok_bindE] at hj'
          rw [hL', ok_bindE]
          simp only at hj' ⊢
          by_cases ht : truthy (some fl) = true
          · rw [if_pos ht] at hj' ⊢
            cases hf : (pyGet ((some fl).getD []) 0 : Except Err Bool) with
            | error e => rw [hf] at hj'; cases hj'
            | ok b =>
              rw [hf] at hj'
              rw [ok_bindE] at hj' ⊢
              cases hj'
              refine ⟨_, rfl, ?_⟩
              show List.Forall₂ (RotJac Q) (_ :: List.map _ (List.replicate _ _)) (_ :: List.map _ (List.replicate _ _))
              refine .cons (ofMat_rot Q b _ _ ?_) ?_
              · show -L'ᵀ * (M * y.model.jacobian x) = Q * (-Lᵀ * y.model.jacobian x)
                rw [← Matrix.mul_assoc, ← Matrix.mul_assoc, Matrix.neg_mul, ← q2, Matrix.mul_neg]
              · rw [List.map_replicate]
                exact List.forall₂_same.mpr (fun j hj => by rw [List.eq_of_mem_replicate hj]; exact .none)
          · rw [if_neg ht] at hj' ⊢
            cases hj'
            exact ⟨_, rfl, .nil⟩

/-! ### The batch -/

/-- The measurement `y'` is `y` in other units. -/
def OtherUnits (y y' : StMeas V n) : Prop :=
  (∀ x, (y.meas.model.covariance x)ᵀ = y.meas.model.covariance x) ∧ y'.stamp = y.stamp ∧
    ∃ M : Mat y.meas.m y.meas.m, M.det ≠ 0 ∧ y'.meas = inUnits y.meas M

theorem inUnits_inv (y : Meas V n) {M : Mat y.m y.m} (h : M.det ≠ 0) : inUnits (inUnits y M) (M⁻¹ : Mat y.m y.m) = y := by
  have hu := unit_of_det h
  obtain ⟨m, value, stamp, model⟩ := y
  obtain ⟨ev, jac, cov⟩ := model
  simp only at M h hu
  have e1 : M⁻¹ *ᵥ (M *ᵥ value) = value := by rw [mulVec_mulVec, nonsing_inv_mul _ hu, one_mulVec]
  have e2 : (fun x => ((ev x).map (M *ᵥ ·)).map (M⁻¹ *ᵥ ·)) = ev := by
    funext x
    cases ev x with
    | none => rfl
    | some v =>
      show some (M⁻¹ *ᵥ (M *ᵥ v)) = some v
      rw [mulVec_mulVec, nonsing_inv_mul _ hu, one_mulVec]
  have e3 : (fun x => M⁻¹ * (M * jac x)) = jac := by
    funext x
    rw [← Matrix.mul_assoc, nonsing_inv_mul _ hu, Matrix.one_mul]
  have e4 : (fun x => M⁻¹ * (M * cov x * Mᵀ) * M⁻¹ᵀ) = cov := by
    funext x
    have : Mᵀ * M⁻¹ᵀ = 1 := by rw [← transpose_mul, nonsing_inv_mul _ hu, transpose_one]
    rw [Matrix.mul_assoc M, ← Matrix.mul_assoc, nonsing_inv_mul _ hu, Matrix.one_mul, Matrix.mul_assoc, this, Matrix.mul_one]
  show (⟨m, M⁻¹ *ᵥ (M *ᵥ value), stamp, ⟨fun x => ((ev x).map (M *ᵥ ·)).map (M⁻¹ *ᵥ ·), fun x => M⁻¹ * (M * jac x),
    fun x => M⁻¹ * (M * cov x * Mᵀ) * M⁻¹ᵀ⟩⟩ : Meas V n) = _
  rw [e1, e2, e3, e4]

theorem OtherUnits.symm {y y' : StMeas V n} (h : OtherUnits y y') : OtherUnits y' y := by
  obtain ⟨h1, h2, M, h3, h4⟩ := h
  obtain ⟨meas', stamp', hstamp'⟩ := y'
  simp only at h2 h4
  subst h4
  refine ⟨fun x => ?_, h2.symm, (M⁻¹ : Mat y.meas.m y.meas.m), ?_, (inUnits_inv y.meas h3).symm⟩
  · show (M * y.meas.model.covariance x * Mᵀ)ᵀ = M * y.meas.model.covariance x * Mᵀ
    rw [transpose_mul, transpose_mul, transpose_transpose, h1, Matrix.mul_assoc]
  · show (M⁻¹).det ≠ 0
    exact ((Matrix.isUnit_iff_isUnit_det _).1 ((Matrix.isUnit_nonsing_inv_iff).2 ((Matrix.isUnit_iff_isUnit_det _).2 (unit_of_det h3)))).ne_zero

/-- The same factor, but for the units of the measurements. -/
inductive FacUnits : BFactor V U n → BFactor V U n → Prop where
  | same (a) : FacUnits a a
  | meas (k : ℕ) {y y' : StMeas V n} (h : OtherUnits y y') : FacUnits (.meas k y) (.meas k y')

theorem batchMeas_units {stamps : List ℝ} : ∀ {ys ys' : List (StMeas V n)}, List.Forall₂ OtherUnits ys ys' →
    ∀ {fs : List (BFactor V U n)}, batchMeas stamps ys = .ok fs → ∃ fs', batchMeas stamps ys' = .ok fs' ∧ List.Forall₂ FacUnits fs fs'
  | _, _, .nil, fs, h => by cases h; exact ⟨[], rfl, .nil⟩
  | y :: ys, y' :: ys', .cons hy hys, fs, h => by
    unfold batchMeas at h
    obtain ⟨k, h1, h⟩ := bind_ok h
    obtain ⟨rest, h2, h⟩ := bind_ok h
    cases h
    obtain ⟨fs', g1, g2⟩ := batchMeas_units hys h2
    refine ⟨_, ?_, .cons (.meas k hy) g2⟩
    unfold batchMeas
    rw [hy.2.1, h1, ok_bindE, g1]
    rfl

theorem factors_units {o : StateOps V n} {f : ProcModel V U n} : ∀ {fs fs' : List (BFactor V U n)}, List.Forall₂ FacUnits fs fs' →
    ∀ {rs : List (Residual ℕ (St V))}, fs.mapM (BFactor.residual o f) = .ok rs →
      ∃ rs', fs'.mapM (BFactor.residual o f) = .ok rs' ∧ List.Forall₂ Rotated rs rs'
  | _, _, .nil, rs, h => by cases h; exact ⟨[], rfl, .nil⟩
  | a :: fs, a' :: fs', .cons ha hfs, rs, h => by
    rw [List.mapM_cons] at h
    obtain ⟨r, h1, h⟩ := bind_ok h
    obtain ⟨rr, h2, h⟩ := bind_ok h
    cases h
    obtain ⟨rs', g1, g2⟩ := factors_units hfs h2
    cases ha with
    | same =>
      refine ⟨r :: rs', ?_, .cons (.refl r) g2⟩
      rw [List.mapM_cons, h1, ok_bindE, g1]
      rfl
    | @meas k y y' hy =>
      obtain ⟨q1, q2, M, q3, q4⟩ := hy
      have hr : r = toResidual [k] (measurementResidual y.meas) := by
        have : (Except.ok (toResidual [k] (measurementResidual y.meas)) : Except Err _) = .ok r := h1
        exact (Except.ok.inj this).symm
      subst hr
      refine ⟨toResidual [k] (measurementResidual y'.meas) :: rs', ?_, .cons ?_ g2⟩
      · rw [List.mapM_cons, g1]
        rfl
      · rw [q4]
        exact meas_rot k y.meas q3 q1

theorem batchGraph_units {f : ProcModel V U n} {rnd : ℝ → ℝ} {x0 : St V} {P0 : Mat n n} {inputs : List (StInp U)}
    {meas meas' : List (StMeas V n)} (hm : List.Forall₂ OtherUnits meas meas') {g : BatchGraph V U n}
    (h : batchGraph f rnd x0 P0 inputs meas = .ok g) :
    ∃ g', batchGraph f rnd x0 P0 inputs meas' = .ok g' ∧ g'.vars = g.vars ∧ List.Forall₂ FacUnits g.factors g'.factors := by
  unfold batchGraph at h ⊢
  cases hs : x0.stamp with
  | none => rw [hs] at h; cases h
  | some t0 =>
    rw [hs] at h
    simp only at h ⊢
    have hst : ∀ y y' : StMeas V n, OtherUnits y y' → y'.stamp = y.stamp + 0 := fun y y' q => by rw [q.2.1, add_zero]
    have hu : List.Forall₂ OtherUnits (batchUsed StMeas.stamp t0 meas) (batchUsed StMeas.stamp t0 meas') := by
      unfold batchUsed
      have := drop_forall2 (t0 := t0) hst (sort_forall2 hst hm)
      rwa [add_zero] at this
    have hstm : ∀ {l l' : List (StMeas V n)}, List.Forall₂ OtherUnits l l' → l'.map (fun y => rnd y.stamp) = l.map fun y => rnd y.stamp := by
      intro l l' h
      induction h with
      | nil => rfl
      | cons q _ ih => rw [List.map_cons, List.map_cons, ih, q.2.1]
    have hbs : batchStamps rnd (batchUsed StInp.stamp t0 inputs) (batchUsed StMeas.stamp t0 meas') =
        batchStamps rnd (batchUsed StInp.stamp t0 inputs) (batchUsed StMeas.stamp t0 meas) := by
      unfold batchStamps
      rw [hstm hu]
    rw [hbs]
    obtain ⟨xs, h1, h⟩ := bind_ok h
    obtain ⟨ps, h2, h⟩ := bind_ok h
    obtain ⟨ms, h3, h⟩ := bind_ok h
    cases h
    obtain ⟨ms', g1, g2⟩ := batchMeas_units hu h3
    rw [h1, ok_bindE, h2, ok_bindE, g1, ok_bindE]
    refine ⟨_, rfl, rfl, ?_⟩
    show List.Forall₂ FacUnits (.prior 0 x0.value P0 :: ps ++ ms) (.prior 0 x0.value P0 :: ps ++ ms')
    rw [List.cons_append, List.cons_append]
    exact .cons (.same _) (List.rel_append (List.forall₂_same.mpr fun a _ => .same a) g2)

/-! ### The results -/

/-- One result of `batchResults`, from the problem as it was solved. -/
noncomputable def batchOne (P : Prob ℕ (St V)) (p : ℕ × St V) : Except Err (St V × DMat) := do
  let r ← P.getCovarianceBlock p.1 p.1
  let b ← needBlock r.1
  return (p.2, b)

/-- The problem with its covariance computed. -/
noncomputable def withCov (P : Prob ℕ (St V)) : Prob ℕ (St V) := if P.cov.isNone then P.computeCovariance else P

theorem withCov_idem (P : Prob ℕ (St V)) : withCov (withCov P) = withCov P := by
  unfold withCov
  cases hc : P.cov with
  | some C =>
    simp only [Option.isNone_some, Bool.false_eq_true, if_false, hc]
  | none =>
    simp only [Option.isNone_none, if_true]
    cases hi : P.info with
    | none =>
      have : P.computeCovariance = P := by unfold Prob.computeCovariance; rw [hi]
      rw [this, hc]
      simp only [Option.isNone_none, if_true, this]
    | some A =>
      by_cases hd : A.2.det = 0
      · have : P.computeCovariance = P := by unfold Prob.computeCovariance; rw [hi]; simp only [if_pos hd]
        rw [this, hc]
        simp only [Option.isNone_none, if_true, this]
      · have : P.computeCovariance = { P with cov := some ⟨A.1, A.2⁻¹⟩ } := by
          unfold Prob.computeCovariance; rw [hi]; simp only [if_neg hd]
        rw [this]
        simp only [Option.isNone_some, Bool.false_eq_true, if_false]

theorem block_withCov (P : Prob ℕ (St V)) (k1 k2 : ℕ) : (withCov P).getCovarianceBlock k1 k2 = P.getCovarianceBlock k1 k2 := by
  have e : ∀ P : Prob ℕ (St V), P.getCovarianceBlock k1 k2 =
      match (withCov P).varSlices.lookup k1, (withCov P).varSlices.lookup k2 with
      | some s1, some s2 =>
        match (withCov P).cov with
        | none => .error .typeError
        | some M => .ok (some (M.block s1 s2), withCov P)
      | _, _ => .ok (none, withCov P) := fun P => rfl
  rw [e, e, withCov_idem]

theorem block_snd {P : Prob ℕ (St V)} {k1 k2 : ℕ} {r : Option DMat × Prob ℕ (St V)} (h : P.getCovarianceBlock k1 k2 = .ok r) :
    r.2 = withCov P := by
  have e : P.getCovarianceBlock k1 k2 =
      match (withCov P).varSlices.lookup k1, (withCov P).varSlices.lookup k2 with
      | some s1, some s2 =>
        match (withCov P).cov with
        | none => .error .typeError
        | some M => .ok (some (M.block s1 s2), withCov P)
      | _, _ => .ok (none, withCov P) := rfl
  rw [e] at h
  split at h
  · split at h
    · cases h
    · cases h; rfl
  · cases h; rfl

theorem batchResults_mapM (P0 : Prob ℕ (St V)) : ∀ (l : List (ℕ × St V)) (P : Prob ℕ (St V)), P = P0 ∨ P = withCov P0 →
    batchResults P l = l.mapM (batchOne P0)
  | [], P, hP => rfl
  | (k, x) :: l, P, hP => by
    have hb : P.getCovarianceBlock k k = P0.getCovarianceBlock k k := by
      rcases hP with rfl | rfl
      · rfl
      · exact block_withCov _ _ _
    unfold batchResults
    rw [List.mapM_cons, hb]
    unfold batchOne
    simp only [bind_assoc]
    cases hr : P0.getCovarianceBlock k k with
    | error e => rfl
    | ok r =>
      rw [ok_bindE, ok_bindE, batchResults_mapM P0 l r.2 (Or.inr (block_snd hr))]
      rfl

/-- Two results: the same state, and arrays with the same entries. -/
def SameResult (a b : St V × DMat) : Prop := a.1 = b.1 ∧ a.2.Same b.2

theorem results_units {Q Q' : Prob ℕ (St V)}
    (hb : ∀ (k1 k2 : ℕ) (r : Option DMat × Prob ℕ (St V)), Q.getCovarianceBlock k1 k2 = .ok r →
      ∃ r', Q'.getCovarianceBlock k1 k2 = .ok r' ∧ SameBlock r.1 r'.1) :
    ∀ {l : List (ℕ × St V)} {res : List (St V × DMat)}, l.mapM (batchOne Q) = .ok res →
      ∃ res', l.mapM (batchOne Q') = .ok res' ∧ List.Forall₂ SameResult res res'
  | [], res, h => by cases h; exact ⟨[], rfl, .nil⟩
  | p :: l, res, h => by
    rw [List.mapM_cons] at h
    obtain ⟨a, h1, h⟩ := bind_ok h
    obtain ⟨as, h2, h⟩ := bind_ok h
    cases h
    obtain ⟨res', g1, g2⟩ := results_units hb h2
    unfold batchOne at h1
    obtain ⟨r, k1, h1⟩ := bind_ok h1
    obtain ⟨b, k2, h1⟩ := bind_ok h1
    cases h1
    obtain ⟨r', j1, j2⟩ := hb _ _ _ k1
    obtain ⟨ro, rp⟩ := r
    obtain ⟨ro', rp'⟩ := r'
    cases ro with
    | none => cases k2
    | some B =>
      cases ro' with
      | none => exact j2.elim
      | some B' =>
        cases k2
        refine ⟨(p.2, B') :: res', ?_, .cons ⟨rfl, j2⟩ g2⟩
        rw [List.mapM_cons, g1]
        unfold batchOne
        rw [j1]
        rfl

theorem batchSolve_units {o : StateOps V n} {f : ProcModel V U n} {rnd : ℝ → ℝ} {cfg : ProbCfg} {x0 : St V} {P0 : Mat n n}
    {inputs : List (StInp U)} {meas meas' : List (StMeas V n)} (hm : List.Forall₂ OtherUnits meas meas') {res : List (St V × DMat)}
    (h : batchSolve o f rnd cfg x0 P0 inputs meas = .ok res) :
    ∃ res', batchSolve o f rnd cfg x0 P0 inputs meas' = .ok res' ∧ List.Forall₂ SameResult res res' := by
  unfold batchSolve at h ⊢
  obtain ⟨g, h1, h⟩ := bind_ok h
  obtain ⟨P, h2, h⟩ := bind_ok h
  obtain ⟨Q, h3, h4⟩ := bind_ok h
  obtain ⟨g', a1, a2, a3⟩ := batchGraph_units hm h1
  obtain ⟨rs, b1, -⟩ := problem_spec h2
  have b2 := problem_form (cfg := cfg) b1
  rw [h2] at b2
  have b3 := Except.ok.inj b2
  obtain ⟨rs', c1, c2⟩ := factors_units a3 b1
  have c3 := problem_form (cfg := cfg) c1
  have hlen : rs'.length = rs.length := c2.length_eq.symm
  have hlos : rs'.map (fun _ => l2Loss) = rs.map fun _ => l2Loss := by
    rw [List.map_const', List.map_const', hlen]
  rw [a2, hlos] at c3
  have c4 : g'.problem o f cfg = .ok { P with residuals := rs' } := by rw [c3, b3]
  subst b3
  obtain ⟨Q', d1, d2, -, d4⟩ := C136_whitening (rs := rs') c2
    (by
      show ((g.vars.zipIdx.map fun p => (p.2, p.1)).map Prod.fst).Nodup
      rw [List.map_map]
      have : (g.vars.zipIdx.map (Prod.fst ∘ fun p => (p.2, p.1))) = List.range' 0 g.vars.length := by
        rw [← List.zipIdx_map_snd 0 g.vars]
        rfl
      rw [this]
      exact List.nodup_range')
    (by simp) ⟨rfl, rfl, rfl, rfl⟩ h3
  rw [a1, ok_bindE, c4, ok_bindE, d1, ok_bindE, d2]
  rw [batchResults_mapM Q _ Q (Or.inl rfl)] at h4
  obtain ⟨res', e1, e2⟩ := results_units d4 h4
  exact ⟨res', by rw [batchResults_mapM Q' _ Q' (Or.inl rfl)]; exact e1, e2⟩

/-- **C136, batch.** Express every measurement in other units — each in its own — with values, predictions, Jacobians and noise covariance
changed accordingly: `BatchEstimator.solve` succeeds for one set of measurements exactly if it does for the other, with the same states
and the same covariance of each. Covariances of measurements must be symmetric (the code reads the lower half of their inverse). -/
theorem C136_units (o : StateOps V n) (f : ProcModel V U n) (rnd : ℝ → ℝ) (cfg : ProbCfg) (x0 : St V) (P0 : Mat n n)
    (inputs : List (StInp U)) (meas : List (StMeas V n)) (units : (y : StMeas V n) → Mat y.meas.m y.meas.m)
    (h : ∀ y ∈ meas, (units y).det ≠ 0)
    (hs : ∀ y ∈ meas, ∀ x, (y.meas.model.covariance x)ᵀ = y.meas.model.covariance x) :
    (∀ res, batchSolve o f rnd cfg x0 P0 inputs meas = .ok res →
      ∃ res', batchSolve o f rnd cfg x0 P0 inputs (meas.map (stInUnits units)) = .ok res' ∧ List.Forall₂ SameResult res res') ∧
    (∀ res', batchSolve o f rnd cfg x0 P0 inputs (meas.map (stInUnits units)) = .ok res' →
      ∃ res, batchSolve o f rnd cfg x0 P0 inputs meas = .ok res ∧ List.Forall₂ SameResult res' res) := by
  have hm : List.Forall₂ OtherUnits meas (meas.map (stInUnits units)) := by
    rw [List.forall₂_map_right_iff]
    exact List.forall₂_same.mpr fun y hy => ⟨hs y hy, rfl, units y, h y hy, rfl⟩
  have hm' : List.Forall₂ OtherUnits (meas.map (stInUnits units)) meas := by
    refine List.Forall₂.flip ?_
    exact hm.imp fun _ _ q => q.symm
  exact ⟨fun res hr => batchSolve_units hm hr, fun res hr => batchSolve_units hm' hr⟩

/-! ### The hypotheses are met -/

/-- A nonlinear batch with its measurement in metres and in centimetres: the value, prediction, Jacobian and covariance of the measurement
differ, and the batch succeeds with the same states. -/
example (solver : String) (hs : solver = "GN" ∨ solver = "LM") :
    (stInUnits (fun _ => (100 : ℝ) • 1) exMeas102).meas.value ≠ exMeas102.meas.value ∧
    ∃ res, batchSolve (vecStateOps 1) exProc102 id ⟨solver, 5, none, none, none, 1⟩ ⟨fun _ => 1, some 0⟩ 1
      [⟨(), 1⟩, ⟨(), 0⟩] [stInUnits (fun _ => (100 : ℝ) • 1) exMeas102] = .ok res ∧
      res.map Prod.fst = [⟨fun _ => 1, some 0⟩, ⟨fun _ => 2, some 1⟩] := by
  refine ⟨?_, ?_⟩
  · intro h
    have h0 : (((100 : ℝ) • (1 : Mat 1 1)) *ᵥ (fun _ => (4 : ℝ))) = fun _ => 4 := h
    rw [smul_mulVec, one_mulVec] at h0
    have := congrFun h0 0
    norm_num at this
  · obtain ⟨res, h1, h2⟩ := exBatch102 solver hs
    obtain ⟨res', h3, h4⟩ := (C136_units (vecStateOps 1) exProc102 id ⟨solver, 5, none, none, none, 1⟩ ⟨fun _ => 1, some 0⟩ 1
      [⟨(), 1⟩, ⟨(), 0⟩] [exMeas102] (fun y => (100 : ℝ) • 1) (fun y _ => by simp [det_smul])
      (fun y hy x => by
        obtain rfl := List.mem_singleton.mp hy
        exact transpose_one)).1 res h1
    refine ⟨res', h3, ?_⟩
    rw [← h2]
    clear h1 h2 h3
    induction h4 with
    | nil => rfl
    | cons h _ ih => rw [List.map_cons, List.map_cons, h.1, ih]

end Verif
