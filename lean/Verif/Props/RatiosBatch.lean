import Verif.Lemmas.ProbScale
import Verif.Props.BatchUnits
import Verif.Props.LinearTotal
import Verif.Props.PerfectBatch2

/-!
C139, batch estimation: only the ratios of the noise covariances matter.
-/

set_option linter.unusedSectionVars false
set_option linter.unusedVariables false
set_option linter.unusedSimpArgs false

namespace Verif

open Matrix

variable {V U : Type} {n : ℕ}

/-! ### Problems -/

/-- **C139, problems.** Multiply all residuals of a problem (and their Jacobians) by the same number `a ≠ 0`; the losses are quadratic, and
the tolerance on the gradient, if there is one, is multiplied by `a²`. `solve` gives the same variables; the costs after all iterations are
multiplied by `a²`; and each covariance block is divided by `a²`. -/
theorem C139_problem {K S : Type} [DecidableEq K] {a : ℝ} (ha : a ≠ 0) (o : VarOps S) (P : Prob K S) (hl : ∀ l ∈ P.losses, l = l2Loss) :
    (scaledProb a P).solve o = (P.solve o).map (scaledProb a) ∧
    ∀ (Q : Prob K S) (k1 k2 : K), ((scaledProb a Q).getCovarianceBlock k1 k2).map Prod.fst =
      (Q.getCovarianceBlock k1 k2).map fun r => r.1.map (DMat.scale (a * a)⁻¹) := by
  refine ⟨solve_times ha o P hl, fun Q k1 k2 => ?_⟩
  rw [covBlock_times ha]
  cases Q.getCovarianceBlock k1 k2 <;> rfl

/-! ### Residuals -/

/-- The factor by which a square root of the information changes. -/
noncomputable def rootFactor (s : ℝ) : ℝ := Real.sqrt s⁻¹

theorem rootFactor_ne {s : ℝ} (hs : 0 < s) : rootFactor s ≠ 0 := (Real.sqrt_pos.2 (inv_pos.2 hs)).ne'

theorem rootFactor_sq {s : ℝ} (hs : 0 < s) : (rootFactor s * rootFactor s)⁻¹ = s := by
  unfold rootFactor
  rw [Real.mul_self_sqrt (inv_pos.2 hs).le, inv_inv]

theorem sqrtInformation_times {m : ℕ} {s : ℝ} (hs : 0 < s) (R : Mat m m) :
    sqrtInformation (s • R) = (sqrtInformation R).map fun L => (rootFactor s • L : Mat m m) := by
  unfold sqrtInformation
  rw [npInv_smul hs.ne']
  cases npInv R with
  | error => rfl
  | ok Ri => exact npCholesky_smul (inv_pos.2 hs) Ri

theorem ofMat_times {m k : ℕ} (a : ℝ) (A : Mat m k) : DMat.ofMat (a • A) = (DMat.ofMat A).scale a := by
  unfold DMat.ofMat DMat.scale
  simp only
  congr 1
  funext i j
  split
  · rfl
  · rw [mul_zero]

/-- What `evaluate` returns, multiplied by `a`. -/
noncomputable def ResOut.times {m k : ℕ} (a : ℝ) (r : ResOut m k) : ResOut m k :=
  ⟨a • r.error, r.jacobians.map (List.map (Option.map fun J => (a • J : Mat m k)))⟩

theorem toResidual_times {S : Type} {m k : ℕ} (a : ℝ) (keys : List ℕ) {f g : List S → Option (List Bool) → Except Err (ResOut m k)}
    (h : ∀ xs cj, g xs cj = (f xs cj).map (ResOut.times a)) : toResidual keys g = scaledRes a (toResidual keys f) := by
  unfold toResidual scaledRes
  simp only
  congr 1
  · funext xs
    rw [h]
    cases f xs none with
    | error => rfl
    | ok r =>
      show Except.ok (List.ofFn (a • r.error)) = Except.ok ((List.ofFn r.error).map (a * ·))
      rw [List.map_ofFn]
      rfl
  · funext xs fl
    rw [h]
    cases f xs (some fl) with
    | error => rfl
    | ok r =>
      obtain ⟨e, js⟩ := r
      cases js with
      | none => rfl
      | some js =>
        show Except.ok _ = Except.ok _
        congr 1
        show ((js.map (Option.map fun J => (a • J : Mat m k))).map (Option.map DMat.ofMat)) = (js.map (Option.map DMat.ofMat)).map (Option.map (DMat.scale a))
        rw [List.map_map, List.map_map]
        refine List.map_congr_left fun J _ => ?_
        cases J with
        | none => rfl
        | some J => exact congrArg some (ofMat_times a J)

theorem whenAsked_times {m k : ℕ} (a : ℝ) (f : Bool) (J : Mat m k) :
    whenAsked f (a • J : Mat m k) = (whenAsked f J).map fun J => (a • J : Mat m k) := by
  cases f <;> rfl

theorem prior_times {s : ℝ} (hs : 0 < s) (o : StateOps V n) (k : ℕ) (x0 : V) (P0 : Mat n n) :
    ((PriorRes.new x0 (s • P0)).map fun r => toResidual [k] (r.evaluate o)) =
      ((PriorRes.new x0 P0).map fun r => toResidual [k] (r.evaluate o)).map (scaledRes (rootFactor s)) := by
  unfold PriorRes.new
  rw [sqrtInformation_times hs]
  cases sqrtInformation P0 with
  | error => rfl
  | ok L =>
    show Except.ok _ = Except.ok _
    congr 1
    refine toResidual_times _ _ fun xs cj => ?_
    unfold PriorRes.evaluate
    cases (pyGet xs 0 : Except Err (St V)) with
    | error => rfl
    | ok x =>
      rw [ok_bindE, ok_bindE]
      by_cases ht : truthy cj = true
      · rw [if_pos ht, if_pos ht]
        cases (pyGet (cj.getD []) 0 : Except Err Bool) with
        | error => rfl
        | ok f =>
          show Except.ok _ = Except.ok _
          congr 1
          unfold ResOut.times
          simp only [transpose_smul, smul_mulVec, Matrix.smul_mul, whenAsked_times, Option.map_some, List.map_cons, List.map_nil]
      · rw [if_neg ht, if_neg ht]
        show Except.ok _ = Except.ok _
        congr 1
        unfold ResOut.times
        simp only [transpose_smul, smul_mulVec, Option.map_none]

theorem process_times {s : ℝ} (hs : 0 < s) (o : StateOps V n) (f : ProcModel V U n) (u : Inp U) (xs : List (St V)) (cj : Option (List Bool)) :
    processResidual o (noisierProc s f) u xs cj = (processResidual o f u xs cj).map (ResOut.times (rootFactor s)) := by
  unfold processResidual
  cases (pyGet xs 0 : Except Err (St V)) with
  | error => rfl
  | ok x0 =>
    rw [ok_bindE, ok_bindE]
    cases (pyGet xs 1 : Except Err (St V)) with
    | error => rfl
    | ok x1 =>
      rw [ok_bindE, ok_bindE]
      cases stampDiff x1.stamp x0.stamp with
      | error => rfl
      | ok dt =>
        rw [ok_bindE, ok_bindE]
        show (sqrtInformation (s • f.covariance x0 u dt) >>= _) = Except.map _ (sqrtInformation (f.covariance x0 u dt) >>= _)
        rw [sqrtInformation_times hs]
        cases sqrtInformation (f.covariance x0 u dt) with
        | error => rfl
        | ok L =>
          show (if truthy cj = true then _ else _) = Except.map _ (if truthy cj = true then _ else _)
          by_cases ht : truthy cj = true
          · rw [if_pos ht, if_pos ht]
            cases (pyGet (cj.getD []) 0 : Except Err Bool) with
            | error => rfl
            | ok f0 =>
              rw [ok_bindE, ok_bindE]
              cases (pyGet (cj.getD []) 1 : Except Err Bool) with
              | error => rfl
              | ok f1 =>
                show Except.ok _ = Except.ok _
                congr 1
                unfold ResOut.times noisierProc
                simp only [transpose_smul, ← smul_neg, smul_mulVec, Matrix.smul_mul, whenAsked_times, Option.map_some, List.map_cons,
                  List.map_replicate, Option.map_none]
          · rw [if_neg ht, if_neg ht]
            show Except.ok _ = Except.ok _
            congr 1
            unfold ResOut.times noisierProc
            simp only [transpose_smul, smul_mulVec, Option.map_none]

theorem meas_times {s : ℝ} (hs : 0 < s) (y : Meas V n) (xs : List (St V)) (cj : Option (List Bool)) :
    measurementResidual (noisierMeas s y) xs cj = (measurementResidual y xs cj).map (ResOut.times (rootFactor s)) := by
  cases hx : (pyGet xs 0 : Except Err (St V)) with
  | error => unfold measurementResidual; rw [hx]; rfl
  | ok x =>
    cases hy : y.model.evaluate x with
    | none =>
      have e1 : measurementResidual y xs cj = .error .attributeError := by
        unfold measurementResidual
        rw [hx, ok_bindE, hy]
      have e2 : measurementResidual (noisierMeas s y) xs cj = .error .attributeError := by
        unfold measurementResidual
        have hy' : (noisierMeas s y).model.evaluate x = none := hy
        rw [hx, ok_bindE, hy']
      rw [e1, e2]; rfl
    | some yc =>
      rw [measurementResidual_core y xs cj hx hy]
      refine (measurementResidual_core (noisierMeas s y) xs cj hx hy).trans ?_
      show measResCore (fun i => y.value i - yc i) (y.model.jacobian x) (s • y.model.covariance x) xs.length cj = _
      unfold measResCore
      rw [sqrtInformation_times hs]
      cases sqrtInformation (y.model.covariance x) with
      | error => rfl
      | ok L =>
        show (if truthy cj = true then _ else _) = Except.map _ (if truthy cj = true then _ else _)
        by_cases ht : truthy cj = true
        · rw [if_pos ht, if_pos ht]
          cases (pyGet (cj.getD []) 0 : Except Err Bool) with
          | error => rfl
          | ok f =>
            show Except.ok _ = Except.ok _
            congr 1
            unfold ResOut.times
            simp only [transpose_smul, ← smul_neg, smul_mulVec, Matrix.smul_mul, whenAsked_times, Option.map_some, List.map_cons,
              List.map_replicate, Option.map_none]
        · rw [if_neg ht, if_neg ht]
          show Except.ok _ = Except.ok _
          congr 1
          unfold ResOut.times
          simp only [transpose_smul, smul_mulVec, Option.map_none]

/-! ### The batch -/

/-- A factor with its covariance multiplied by `s`. -/
def noisierFactor (s : ℝ) : BFactor V U n → BFactor V U n
  | .prior k x0 P0 => .prior k x0 (s • P0)
  | .process k1 k2 u => .process k1 k2 u
  | .meas k y => .meas k (noisierStMeas s y)

theorem factor_times {s : ℝ} (hs : 0 < s) (o : StateOps V n) (f : ProcModel V U n) (b : BFactor V U n) :
    (noisierFactor s b).residual o (noisierProc s f) = (b.residual o f).map (scaledRes (rootFactor s)) := by
  cases b with
  | prior k x0 P0 => exact prior_times hs o k x0 P0
  | process k1 k2 u => exact congrArg Except.ok (toResidual_times _ _ fun xs cj => process_times hs o f _ xs cj)
  | meas k y => exact congrArg Except.ok (toResidual_times _ _ fun xs cj => meas_times hs y.meas xs cj)

theorem factors_times {s : ℝ} (hs : 0 < s) (o : StateOps V n) (f : ProcModel V U n) : ∀ (l : List (BFactor V U n)),
    (l.map (noisierFactor s)).mapM (BFactor.residual o (noisierProc s f)) =
      (l.mapM (BFactor.residual o f)).map (List.map (scaledRes (rootFactor s)))
  | [] => rfl
  | b :: l => by
    rw [List.map_cons, List.mapM_cons, List.mapM_cons, factor_times hs, factors_times hs o f l]
    cases b.residual o f with
    | error => rfl
    | ok r =>
      show (Except.map _ (l.mapM (BFactor.residual o f)) >>= _) = Except.map _ (l.mapM (BFactor.residual o f) >>= _)
      cases l.mapM (BFactor.residual o f) <;> rfl

theorem batchUsed_times (s t0 : ℝ) (l : List (StMeas V n)) :
    batchUsed StMeas.stamp t0 (l.map (noisierStMeas s)) = (batchUsed StMeas.stamp t0 l).map (noisierStMeas s) := by
  have hst : ∀ y y' : StMeas V n, y' = noisierStMeas s y → y'.stamp = y.stamp + 0 := by rintro y _ rfl; exact (add_zero _).symm
  have h : List.Forall₂ (fun y y' => y' = noisierStMeas s y) l (l.map (noisierStMeas s)) := by
    rw [List.forall₂_map_right_iff]
    exact List.forall₂_same.mpr fun _ _ => rfl
  have h2 : List.Forall₂ (fun y y' => y' = noisierStMeas s y) (batchUsed StMeas.stamp t0 l) (batchUsed StMeas.stamp t0 (l.map (noisierStMeas s))) := by
    unfold batchUsed
    have := drop_forall2 (t0 := t0) hst (sort_forall2 hst h)
    rwa [add_zero] at this
  generalize batchUsed StMeas.stamp t0 l = a at h2 ⊢
  generalize batchUsed StMeas.stamp t0 (l.map (noisierStMeas s)) = b at h2 ⊢
  clear h hst
  induction h2 with
  | nil => rfl
  | cons hab _ ih => rw [List.map_cons, hab, ih]

theorem batchMeas_times (s : ℝ) (stamps : List ℝ) : ∀ (l : List (StMeas V n)),
    (batchMeas stamps (l.map (noisierStMeas s)) : Except Err (List (BFactor V U n))) =
      (batchMeas stamps l).map (List.map (noisierFactor s))
  | [] => rfl
  | y :: l => by
    rw [List.map_cons]
    unfold batchMeas
    show (findNearestIdx stamps y.stamp >>= _) = Except.map _ (findNearestIdx stamps y.stamp >>= _)
    cases findNearestIdx stamps y.stamp with
    | error => rfl
    | ok k =>
      rw [ok_bindE, ok_bindE, batchMeas_times s stamps l]
      cases (batchMeas stamps l : Except Err (List (BFactor V U n))) <;> rfl

theorem batchPropagate_times (s : ℝ) (f : ProcModel V U n) (us : List (StInp U)) (is : List ℝ) : ∀ (ss : List ℝ) (i : ℕ) (x : St V),
    batchPropagate (noisierProc s f) us is ss i x = batchPropagate f us is ss i x
  | [], i, x => rfl
  | t :: ss, i, x => by
    unfold batchPropagate
    simp only [batchPropagate_times s f us is ss]
    rfl

theorem batchProcess_times (s : ℝ) (stamps : List ℝ) : ∀ (us : List (StInp U)) (l : List (BFactor V U n)), batchProcess stamps us = .ok l →
    l.map (noisierFactor s) = l
  | [], l, h => by cases h; rfl
  | [u], l, h => by cases h; rfl
  | u :: u' :: us, l, h => by
    unfold batchProcess at h
    obtain ⟨k1, h1, h⟩ := bind_ok h
    obtain ⟨k2, h2, h⟩ := bind_ok h
    obtain ⟨r, h3, h⟩ := bind_ok h
    cases h
    rw [List.map_cons, batchProcess_times s stamps (u' :: us) r h3]
    rfl

/-- The graph with all covariances multiplied by `s`. -/
def noisierGraph (s : ℝ) (g : BatchGraph V U n) : BatchGraph V U n := ⟨g.vars, g.factors.map (noisierFactor s)⟩

theorem batchGraph_times (s : ℝ) (f : ProcModel V U n) (rnd : ℝ → ℝ) (x0 : St V) (P0 : Mat n n) (inputs : List (StInp U))
    (meas : List (StMeas V n)) : batchGraph (noisierProc s f) rnd x0 (s • P0) inputs (meas.map (noisierStMeas s)) =
      (batchGraph f rnd x0 P0 inputs meas).map (noisierGraph s) := by
  unfold batchGraph
  cases x0.stamp with
  | none => rfl
  | some t0 =>
    have hstm : ∀ l : List (StMeas V n), (l.map (noisierStMeas s)).map (fun y => rnd y.stamp) = l.map fun y => rnd y.stamp := by
      intro l
      rw [List.map_map]
      rfl
    have hbs : batchStamps rnd (batchUsed StInp.stamp t0 inputs) (batchUsed StMeas.stamp t0 (meas.map (noisierStMeas s))) =
        batchStamps rnd (batchUsed StInp.stamp t0 inputs) (batchUsed StMeas.stamp t0 meas) := by
      unfold batchStamps
      rw [batchUsed_times, hstm]
    simp only []
    rw [hbs, batchUsed_times, batchMeas_times]
    generalize batchStamps rnd (batchUsed StInp.stamp t0 inputs) (batchUsed StMeas.stamp t0 meas) = stamps
    have hx : batchStates (noisierProc s f) rnd x0 (batchUsed StInp.stamp t0 inputs) stamps =
        batchStates f rnd x0 (batchUsed StInp.stamp t0 inputs) stamps := by
      cases stamps with
      | nil => rfl
      | cons t ss =>
        unfold batchStates
        show (batchPropagate (noisierProc s f) _ _ ss 0 x0 >>= _) = _
        rw [batchPropagate_times]
    rw [hx]
    cases batchStates f rnd x0 (batchUsed StInp.stamp t0 inputs) stamps with
    | error => rfl
    | ok xs =>
      rw [ok_bindE, ok_bindE]
      cases hp : (batchProcess stamps (batchUsed StInp.stamp t0 inputs) : Except Err (List (BFactor V U n))) with
      | error => rfl
      | ok ps =>
        rw [ok_bindE, ok_bindE]
        cases (batchMeas stamps (batchUsed StMeas.stamp t0 meas) : Except Err (List (BFactor V U n))) with
        | error => rfl
        | ok ms =>
          show Except.ok (⟨xs, .prior 0 x0.value (s • P0) :: ps ++ ms.map (noisierFactor s)⟩ : BatchGraph V U n) =
            Except.ok ⟨xs, (.prior 0 x0.value P0 :: ps ++ ms).map (noisierFactor s)⟩
          rw [List.map_append, List.map_cons, batchProcess_times s _ _ _ hp]
          rfl

theorem problem_times {s : ℝ} (hs : 0 < s) (o : StateOps V n) (f : ProcModel V U n) {cfg : ProbCfg} (hg : cfg.gradTol = none)
    (g : BatchGraph V U n) : (noisierGraph s g).problem o (noisierProc s f) cfg = (g.problem o f cfg).map (scaledProb (rootFactor s)) := by
  have hf := factors_times hs o f g.factors
  cases h : g.factors.mapM (BFactor.residual o f) with
  | error e =>
    rw [h] at hf
    unfold BatchGraph.problem noisierGraph
    simp only
    rw [hf, h]
    rfl
  | ok rs =>
    rw [h] at hf
    rw [problem_form (cfg := cfg) h]
    refine (problem_form (g := noisierGraph s g) (cfg := cfg) hf).trans ?_
    show Except.ok _ = Except.ok _
    congr 1
    have hc : scaledCfg (rootFactor s) cfg = cfg := by
      unfold scaledCfg
      rw [hg, Option.map_none, ← hg]
    unfold scaledProb
    simp only [Prob.new, noisierGraph, hc, Option.map_none, List.map_map, List.map_nil]
    rfl

theorem batchResults_times {a : ℝ} (ha : a ≠ 0) : ∀ (l : List (ℕ × St V)) (P : Prob ℕ (St V)),
    batchResults (scaledProb a P) l = (batchResults P l).map (List.map fun r => (r.1, r.2.scale (a * a)⁻¹))
  | [], P => rfl
  | (k, x) :: l, P => by
    unfold batchResults
    rw [covBlock_times ha]
    cases P.getCovarianceBlock k k with
    | error => rfl
    | ok r =>
      obtain ⟨b, P'⟩ := r
      cases b with
      | none => rfl
      | some b =>
        show (batchResults (scaledProb a P') l >>= _) = Except.map _ (batchResults P' l >>= _)
        rw [batchResults_times ha l P']
        cases batchResults P' l <;> rfl

theorem problem_losses {o : StateOps V n} {f : ProcModel V U n} {cfg : ProbCfg} {g : BatchGraph V U n} {P : Prob ℕ (St V)}
    (h : g.problem o f cfg = .ok P) : ∀ l ∈ P.losses, l = l2Loss := by
  obtain ⟨rs, -, -, h3, -⟩ := problem_spec h
  rw [h3]
  intro l hl
  obtain ⟨r, -, rfl⟩ := List.mem_map.1 hl
  rfl

/-- **C139, batches.** `BatchEstimator.solve` without a tolerance on the gradient, by either solver: if the initial covariance and the
covariances of the process and the measurement noises are all multiplied by `s`, then the states are the same and the covariances are multiplied
by `s`. -/
theorem C139_batch {s : ℝ} (hs : 0 < s) (o : StateOps V n) (f : ProcModel V U n) (rnd : ℝ → ℝ) (cfg : ProbCfg) (hg : cfg.gradTol = none)
    (x0 : St V) (P0 : Mat n n) (inputs : List (StInp U)) (meas : List (StMeas V n)) :
    batchSolve o (noisierProc s f) rnd cfg x0 (s • P0) inputs (meas.map (noisierStMeas s)) =
      (batchSolve o f rnd cfg x0 P0 inputs meas).map (List.map fun r => (r.1, r.2.scale s)) := by
  unfold batchSolve
  rw [batchGraph_times]
  cases batchGraph f rnd x0 P0 inputs meas with
  | error => rfl
  | ok g =>
    show ((noisierGraph s g).problem o (noisierProc s f) cfg >>= _) = Except.map _ (g.problem o f cfg >>= _)
    rw [problem_times hs o f hg]
    cases hP : g.problem o f cfg with
    | error => rfl
    | ok P =>
      show ((scaledProb (rootFactor s) P).solve o.varOps >>= _) = Except.map _ (P.solve o.varOps >>= _)
      rw [solve_times (rootFactor_ne hs) o.varOps P (problem_losses hP)]
      cases P.solve o.varOps with
      | error => rfl
      | ok Q =>
        show batchResults (scaledProb (rootFactor s) Q) Q.vars = Except.map _ (batchResults Q Q.vars)
        rw [batchResults_times (rootFactor_ne hs), rootFactor_sq hs]

/-! ### Outliers, and the hypotheses are met -/

/-- A measurement of 4, at time 1. -/
noncomputable def exMeas139 : Meas (Vec 1) 1 := linMeas (1 : Mat 1 1) 1 (fun _ => 4) (some 1)

/-- The filter of the example, which rejects outliers. -/
noncomputable def exEkf139 : EkfEnv (Vec 1) ℝ 1 := vecEnv walk1 true (fun _ => 6)

theorem inv_one_matrix (c : ℝ) (hc : c ≠ 0) : (c • (1 : Mat 1 1))⁻¹ = c⁻¹ • (1 : Mat 1 1) := by
  refine inv_eq_right_inv ?_
  rw [Matrix.smul_mul, Matrix.mul_smul, Matrix.mul_one, smul_smul, mul_inv_cancel₀ hc, one_smul]

theorem nis_one_matrix (c z : ℝ) (hc : c ≠ 0) : (fun _ : Fin 1 => z) ⬝ᵥ ((c • (1 : Mat 1 1))⁻¹ *ᵥ fun _ => z) = z * z / c := by
  rw [inv_one_matrix c hc, smul_mulVec, one_mulVec, dotProduct_smul]
  simp [dotProduct]
  ring

/-- **C139, outliers.** With outlier rejection the common scale of the covariances does matter: a measurement of 4 against an estimate of 0,
both with variance 1, is rejected; both with variance 2, it is fused. -/
theorem C139_outliers_matter :
    exEkf139.correct (est1 1) exMeas139 none none none = .ok (est1 1) ∧
    (noisierEkf 2 exEkf139).correct (noisier 2 (est1 1)) (noisierMeas 2 exMeas139) none none none =
      .ok ⟨⟨fun _ => 2, some 1⟩, 1⟩ := by
  have hd : ∀ s : ℝ, 0 < s → (innovCov (noisier s (est1 1)) (noisierMeas s exMeas139) none) = ((2 * s) • (1 : Mat 1 1)) := by
    intro s hs
    show (1 : Mat 1 1) * (s • (1 : Mat 1 1)) * (1 : Mat 1 1)ᵀ + s • (1 : Mat 1 1) = _
    rw [transpose_one, Matrix.one_mul, Matrix.mul_one, ← add_smul, two_mul]
  have hz : (fun i => exMeas139.value i - ((1 : Mat 1 1) *ᵥ (est1 1).state.value) i) = fun _ => (4 : ℝ) := by
    funext i
    show (4 : ℝ) - ((1 : Mat 1 1) *ᵥ fun _ => (0 : ℝ)) i = 4
    rw [one_mulVec, sub_zero]
  have key : ∀ s : ℝ, 0 < s → (noisierEkf s exEkf139).fuse (noisier s (est1 1)) (noisierMeas s exMeas139) none true =
      if (4 : ℝ) * 4 / (2 * s) > 6 then .ok (noisier s (est1 1), some ⟨1, fun _ => 4, (2 * s) • (1 : Mat 1 1), true⟩)
      else (noisierEkf s exEkf139).fuse (noisier s (est1 1)) (noisierMeas s exMeas139) none false := by
    intro s hs
    have h2 : 2 * s ≠ 0 := by positivity
    have h := fuse_reject (noisierEkf s exEkf139) (noisier s (est1 1)) (noisierMeas s exMeas139) none ((1 : Mat 1 1) *ᵥ (est1 1).state.value) rfl
      (by rw [hd s hs]; show ((2 * s) • (1 : Mat 1 1)).det ≠ 0; simp [det_smul, hs.ne'])
    rw [hd s hs] at h
    have gen : ∀ z : Vec 1, z = (fun _ => (4 : ℝ)) →
        ((noisierEkf s exEkf139).fuse (noisier s (est1 1)) (noisierMeas s exMeas139) none true =
          if z ⬝ᵥ (((2 * s) • (1 : Mat 1 1))⁻¹ *ᵥ z) > 6 then .ok (noisier s (est1 1), some ⟨1, z, (2 * s) • (1 : Mat 1 1), true⟩)
          else (noisierEkf s exEkf139).fuse (noisier s (est1 1)) (noisierMeas s exMeas139) none false) →
        (noisierEkf s exEkf139).fuse (noisier s (est1 1)) (noisierMeas s exMeas139) none true =
          if (4 : ℝ) * 4 / (2 * s) > 6 then .ok (noisier s (est1 1), some ⟨1, fun _ => 4, (2 * s) • (1 : Mat 1 1), true⟩)
          else (noisierEkf s exEkf139).fuse (noisier s (est1 1)) (noisierMeas s exMeas139) none false := by
      rintro z rfl hz
      rwa [nis_one_matrix _ _ h2] at hz
    exact gen _ hz h
  have hadv : ∀ s : ℝ, (noisierEkf s exEkf139).advance (noisier s (est1 1)) (noisierMeas s exMeas139) none = .ok (noisier s (est1 1)) := by
    intro s
    unfold EkfEnv.advance
    simp only [noisier, est1, noisierMeas, exMeas139, linMeas, sub_self]
    rw [if_neg (by norm_num)]
  constructor
  · have e1 : noisierEkf 1 exEkf139 = exEkf139 := by
      unfold noisierEkf noisierProc
      simp only [one_smul]
    have e2 : noisier 1 (est1 1) = est1 1 := by unfold noisier; rw [one_smul]
    have e3 : noisierMeas 1 exMeas139 = exMeas139 := by
      unfold noisierMeas
      simp only [one_smul]
    have ha := hadv 1
    have hk := key 1 one_pos
    rw [e1, e2, e3] at ha hk
    rw [if_pos (by norm_num)] at hk
    unfold EkfEnv.correct EkfEnv.correctD
    rw [ha]
    show Except.map _ (exEkf139.fuse (est1 1) exMeas139 none true) = _
    rw [hk]
    rfl
  · have hk := key 2 two_pos
    rw [if_neg (by norm_num)] at hk
    have h1 : (noisierEkf 2 exEkf139).correct (noisier 2 (est1 1)) (noisierMeas 2 exMeas139) none none none =
        (noisierEkf 2 exEkf139).correct (noisier 2 (est1 1)) (noisierMeas 2 exMeas139) none none (some false) := by
      unfold EkfEnv.correct EkfEnv.correctD
      rw [hadv 2]
      exact congrArg (Except.map Prod.fst) hk
    rw [h1, C139_correct (s := 2) two_ne_zero exEkf139 (est1 1) exMeas139 none none (some false) rfl]
    have hc := correct_linear walk1 true (fun _ => 6) (1 : Mat 1 1) (1 : Mat 1 1) (one_pd 1) (fun _ => 4) 1 (est1 1) PosSemidef.one rfl
    rw [show exEkf139.correct (est1 1) exMeas139 none none (some false) = _ from hc]
    have hi : ((1 : Mat 1 1) + 1)⁻¹ = (2 : ℝ)⁻¹ • (1 : Mat 1 1) := by
      rw [← two_smul ℝ (1 : Mat 1 1), inv_one_matrix 2 two_ne_zero]
    show Except.ok (⟨⟨(fun _ => 0) + kGain (1 : Mat 1 1) 1 1 *ᵥ ((fun _ => 4) - (1 : Mat 1 1) *ᵥ fun _ => 0), some 1⟩,
      (2 : ℝ) • kCov (1 : Mat 1 1) 1 1⟩ : SWC (Vec 1) 1) = _
    unfold kCov kGain
    simp only [transpose_one, Matrix.mul_one, Matrix.one_mul]
    rw [hi, one_mulVec, smul_mulVec, one_mulVec]
    refine congrArg Except.ok ?_
    congr 1
    · congr 1
      funext i
      show (0 : ℝ) + 2⁻¹ * (4 - 0) = 2
      norm_num
    · ext i j
      fin_cases i; fin_cases j
      norm_num

/-- Non-vacuity of C139: the batch of `C102`, with all noises a hundred times as large. -/
example (solver : String) (hs : solver = "GN" ∨ solver = "LM") :
    ∃ res, batchSolve (vecStateOps 1) (noisierProc 100 exProc102) id ⟨solver, 5, none, none, none, 1⟩ ⟨fun _ => 1, some 0⟩ ((100 : ℝ) • (1 : Mat 1 1))
      [⟨(), 1⟩, ⟨(), 0⟩] [noisierStMeas 100 exMeas102] = .ok res ∧
      res.map Prod.fst = [⟨fun _ => 1, some 0⟩, ⟨fun _ => 2, some 1⟩] := by
  obtain ⟨res, h1, h2⟩ := exBatch102 solver hs
  have h := C139_batch (s := 100) (by norm_num) (vecStateOps 1) exProc102 id ⟨solver, 5, none, none, none, 1⟩ rfl ⟨fun _ => 1, some 0⟩ 1
    [⟨(), 1⟩, ⟨(), 0⟩] [exMeas102]
  rw [h1] at h
  refine ⟨_, h, ?_⟩
  rw [List.map_map]
  exact h2

end Verif
