import Verif.Lemmas.Iekf
import Verif.Props.Ekf

/-!
Property theorems about `IteratedKalmanFilter` (C10 - C12).
-/

set_option linter.unusedVariables false

namespace Verif

open Matrix

variable {V U : Type} {n : ℕ}

/-- Specification: the MAP cost `½ (‖s ⊖ x‖²_{P⁻¹} + ‖y - h(s)‖²_{R⁻¹})` of a candidate state `s`,
defined when the measurement model returns a value at `s`. -/
noncomputable def mapCostAt (minus : V → V → Vec n) (x : SWC V n) (y : Meas V n)
    (R : Mat y.m y.m) (s : St V) : Option ℝ :=
  (y.model.evaluate s).map fun yc =>
    (1 / 2) * ((minus s.value x.state.value) ⬝ᵥ x.cov⁻¹ *ᵥ (minus s.value x.state.value)
      + (y.value - yc) ⬝ᵥ R⁻¹ *ᵥ (y.value - yc))

/-- `a` has a strictly smaller cost than `b` (both defined). -/
def CostLt (c : St V → Option ℝ) (a b : St V) : Prop :=
  ∃ ca cb, c a = some ca ∧ c b = some cb ∧ ca < cb

instance (c : St V → Option ℝ) : Trans (CostLt c) (CostLt c) (CostLt c) where
  trans h1 h2 := by
    obtain ⟨ca, cb, h1, h2', h3⟩ := h1
    obtain ⟨cb', cd, h4, h5, h6⟩ := h2
    rw [h2'] at h4; cases h4
    exact ⟨ca, cd, h1, h5, lt_trans h3 h6⟩

theorem CostLt.trans {c : St V → Option ℝ} {a b d : St V} (h1 : CostLt c a b) (h2 : CostLt c b d) :
    CostLt c a d := by
  obtain ⟨ca, cb, h1, h2', h3⟩ := h1
  obtain ⟨cb', cd, h4, h5, h6⟩ := h2
  rw [h2'] at h4; cases h4
  exact ⟨ca, cd, h1, h5, lt_trans h3 h6⟩

/-- Loop invariant of the Gauss-Newton loop with line search. -/
theorem gnLoop_cost (f : IekfEnv V U n) (hls : f.lineSearch = true) (lsFuel : ℕ) (x : SWC V n)
    (y : Meas V n) (R : Mat y.m y.m) (hR : ∀ s, y.model.covariance s = R) (reject : Bool)
    (k : ℕ) (xop : St V) (tr : List (St V))
    (hch : List.IsChain (CostLt (mapCostAt f.minus x y R)) (tr ++ [x.state]))
    (hhd : (tr ++ [x.state]).head? = some xop)
    (o : Bool) (xf : St V) (tr' : List (St V))
    (h : f.gnLoop lsFuel x y reject k xop tr = .ok (o, xf, tr')) :
    List.IsChain (CostLt (mapCostAt f.minus x y R)) (tr' ++ [x.state]) ∧
      (tr' ++ [x.state]).head? = some xf ∧ tr'.length ≤ tr.length + k := by
  induction k generalizing xop tr with
  | zero =>
    simp only [IekfEnv.gnLoop] at h
    cases h
    exact ⟨hch, hhd, le_rfl⟩
  | succ k ih =>
    unfold IekfEnv.gnLoop at h
    obtain ⟨r, hr, h⟩ := bind_ok h
    cases r with
    | outlier => cases h; exact ⟨hch, hhd, by omega⟩
    | stop => cases h; exact ⟨hch, hhd, by omega⟩
    | step xnew =>
      obtain ⟨yc, hyc, _, hstep⟩ := gnPass_step f lsFuel x y reject xop xnew hr
      obtain ⟨a, yn, _, _, hyn, hlt⟩ := hstep hls
      have hlt' : CostLt (mapCostAt f.minus x y R) xnew xop := by
        unfold CostLt mapCostAt
        rw [hyc, hyn]
        refine ⟨_, _, rfl, rfl, ?_⟩
        rw [hR] at hlt
        exact hlt
      have := ih xnew (xnew :: tr) (by
        rw [List.cons_append]
        cases htr : tr ++ [x.state] with
        | nil => simp at htr
        | cons b l =>
          rw [htr] at hhd hch
          simp at hhd
          rw [hhd] at hch ⊢
          exact List.IsChain.cons_cons hlt' hch) (by simp) h
      refine ⟨this.1, this.2.1, ?_⟩
      have h3 := this.2.2
      simp only [List.length_cons] at h3
      omega

/-- **C10.** With line search and a state-independent measurement covariance, for a stamped estimate and
no prediction: the accepted iterates (latest first, ending with the prior mean) have strictly decreasing MAP cost,
there are at most `max_iters` of them, and the returned mean is the last of them (or the prior mean when
the measurement was rejected as an outlier). -/
theorem C10_iekf_cost_decreases (f : IekfEnv V U n) (hls : f.lineSearch = true) (lsFuel : ℕ)
    (x : SWC V n) (y : Meas V n) (R : Mat y.m y.m) (hR : ∀ s, y.model.covariance s = R)
    (xjac : Option (St V)) (rej : Option Bool) (tx : ℝ) (hx : x.state.stamp = some tx)
    (x' : SWC V n) (tr : List (St V)) (h : f.correctT lsFuel x y none xjac rej = .ok (x', tr)) :
    List.IsChain (CostLt (mapCostAt f.minus x y R)) (tr ++ [x.state]) ∧
    tr.length ≤ f.maxIters ∧
    (some x'.state = (tr ++ [x.state]).head? ∨ x'.state = x.state) := by
  unfold IekfEnv.correctT at h
  obtain ⟨xp, hxp, h⟩ := bind_ok h
  rw [advanceI_none f x y tx hx xp hxp] at h
  unfold IekfEnv.fuseI at h
  split at h
  · cases h
  · obtain ⟨⟨o, xf, tr'⟩, hl, h⟩ := bind_ok h
    obtain ⟨x1, hx1, h⟩ := bind_ok h
    simp only [pure, Except.pure, Except.ok.injEq, Prod.mk.injEq] at h
    obtain ⟨h1, rfl⟩ := h
    have hinv := gnLoop_cost f hls lsFuel x y R hR _ f.maxIters x.state [] (by simp) (by simp)
      o xf tr' hl
    refine ⟨hinv.1, by simpa using hinv.2.2, ?_⟩
    unfold IekfEnv.conclude at hx1
    cases o
    · left
      simp only [Bool.false_eq_true, if_false] at hx1
      unfold IekfEnv.finish at hx1
      obtain ⟨Kt, _, hx1⟩ := bind_ok hx1
      simp only [pure, Except.pure, Except.ok.injEq] at hx1
      rw [hinv.2.1, ← h1, ← hx1]
    · right
      simp only [if_true, Except.ok.injEq] at hx1
      rw [← h1, ← hx1]

/-- **C10 (corollary).** The cost of the returned mean is strictly below the cost of the prior mean, or
the mean did not move. -/
theorem C10_iekf_never_worse (f : IekfEnv V U n) (hls : f.lineSearch = true) (lsFuel : ℕ)
    (x : SWC V n) (y : Meas V n) (R : Mat y.m y.m) (hR : ∀ s, y.model.covariance s = R)
    (xjac : Option (St V)) (rej : Option Bool) (tx : ℝ) (hx : x.state.stamp = some tx)
    (x' : SWC V n) (h : f.correctI lsFuel x y none xjac rej = .ok x') :
    x'.state = x.state ∨ CostLt (mapCostAt f.minus x y R) x'.state x.state := by
  unfold IekfEnv.correctI at h
  cases hc : f.correctT lsFuel x y none xjac rej with
  | error e => rw [hc] at h; cases h
  | ok r =>
    rw [hc] at h
    obtain ⟨x1, tr⟩ := r
    simp [Except.map] at h
    subst h
    obtain ⟨h1, _, h3⟩ := C10_iekf_cost_decreases f hls lsFuel x y R hR xjac rej tx hx x1 tr hc
    rcases h3 with h3 | h3
    · cases tr with
      | nil => left; simpa using h3
      | cons a l =>
        right
        simp at h3
        rw [h3]
        have hp : List.Pairwise (CostLt (mapCostAt f.minus x y R)) (a :: l ++ [x.state]) :=
          List.isChain_iff_pairwise.1 h1
        rw [List.cons_append, List.pairwise_cons] at hp
        exact hp.1 _ (by simp)
    · left; exact h3

/-- **C10 (termination).** With a positive step tolerance, the backtracking loops end: a bound on their
number of passes exists that is uniform over all states, measurements and models, so the call
terminates (returns or raises). -/
theorem C10_iekf_terminates (f : IekfEnv V U n) (htol : 0 < f.stepTol) :
    ∃ N, ∀ lsFuel ≥ N, ∀ (x : SWC V n) (y : Meas V n) (u : Option (Inp U)) (xjac : Option (St V))
      (rej : Option Bool), f.correctI lsFuel x y u xjac rej ≠ .error .diverges := by
  obtain ⟨N, hN⟩ := exists_fuel htol
  refine ⟨N + 1, fun lsFuel hf x y u xjac rej => ?_⟩
  obtain ⟨k, rfl⟩ : ∃ k, lsFuel = k + 1 := ⟨lsFuel - 1, by omega⟩
  have hk := hN k (by omega)
  have hpt : ∀ (s : Option ℝ) (u : Option (Inp U)) (dt : Option ℝ),
      predictTime s u dt ≠ .error .diverges := by
    intro s u dt
    rcases s with _ | tx <;> rcases u with _ | ⟨uv, _ | tu⟩ <;> rcases dt with _ | d <;>
      simp [predictTime, bind, Except.bind] <;> split_ifs <;> simp
  have hadv : f.advanceI x y u ≠ .error .diverges := by
    unfold IekfEnv.advanceI
    simp only
    split
    · simp
    · split
      · simp
      · split
        · simp
        · split
          · simp
          · split
            · rw [Ne, predict_error_iff]; exact hpt _ _ _
            · simp
  have hT : f.correctT (k + 1) x y u xjac rej ≠ .error .diverges := by
    unfold IekfEnv.correctT
    refine bind_ne_diverges hadv fun xp _ => ?_
    unfold IekfEnv.fuseI
    split
    · simp
    · refine bind_ne_diverges (gnLoop_ne_diverges f k xp y _ hk _ _ _) ?_
      rintro ⟨o, xf, tr⟩ _
      simp only
      refine bind_ne_diverges ?_ (by intros; simp [pure, Except.pure])
      unfold IekfEnv.conclude
      split
      · simp
      · unfold IekfEnv.finish
        exact bind_ne_diverges (solve_ne_diverges _ _) (by intros; simp [pure, Except.pure])
  unfold IekfEnv.correctI
  intro h
  cases hc : f.correctT (k + 1) x y u xjac rej with
  | error e => rw [hc] at h; simp [Except.map] at h; exact hT (by rw [hc, h])
  | ok r => rw [hc] at h; simp [Except.map] at h

/-! ### C11: linear models -/

/-- The iterated EKF on a vector state. -/
def vecIekf (proc : ProcModel (Vec n) U n) (rej : Bool) (chi : ℕ → ℝ) (tol : ℝ) (iters : ℕ)
    (ls : Bool) : IekfEnv (Vec n) U n where
  toEkfEnv := vecEnv proc rej chi
  stepTol := tol
  maxIters := iters
  lineSearch := ls
  minus a b := a - b
  plusJac _ _ := 1

section linear
variable (proc : ProcModel (Vec n) U n) (rejD : Bool) (chi : ℕ → ℝ) (tol : ℝ) (iters : ℕ) (ls : Bool)
  {m : ℕ} (C : Mat m n) (R : Mat m m) (hR : R.PosDef) (y : Vec m) (t : ℝ)
  (x : SWC (Vec n) n) (hP : x.cov.PosDef)

/-- posterior mean -/
noncomputable def postMean (x : SWC (Vec n) n) (C : Mat m n) (R : Mat m m) (y : Vec m) : Vec n :=
  x.state.value + kGain x.cov C R *ᵥ (y - C *ᵥ x.state.value)

include hR hP in
theorem gnPass_linear (lsFuel : ℕ) (v : Vec n)
    (h01 : ls = true → 0 < tol ∧ tol < 1) :
    (vecIekf proc rejD chi tol iters ls).gnPass (lsFuel + 1) x (linMeas C R y (some t)) false
        ⟨v, some t⟩ =
      if npNorm (postMean x C R y - v) < tol then .ok .stop
      else .ok (.step ⟨postMean x C R y, some t⟩) := by
  have hS : (C * x.cov * Cᵀ + R).PosDef := innov_pd hP.posSemidef C hR
  have hsym : symmetrize (C * x.cov * Cᵀ + R) = C * x.cov * Cᵀ + R :=
    symmetrize_eq (psd_symm hS.posSemidef)
  have hdir : gnDir (vecIekf proc rejD chi tol iters ls) x (linMeas C R y (some t)) ⟨v, some t⟩ (C *ᵥ v)
      = postMean x C R y - v := by
    show -((1 : Mat n n) *ᵥ (v - x.state.value)) + ((1 : Mat n n) * x.cov * (1 : Mat n n)ᵀ * Cᵀ
      * (symmetrize (C * ((1 : Mat n n) * x.cov * (1 : Mat n n)ᵀ) * Cᵀ + R))⁻¹) *ᵥ
      ((fun i => y i - (C *ᵥ v) i) + C *ᵥ ((1 : Mat n n) *ᵥ (v - x.state.value))) = _
    simp only [Matrix.one_mul, transpose_one, Matrix.mul_one, one_mulVec]
    rw [hsym]
    have : ((fun i => y i - (C *ᵥ v) i) + C *ᵥ (v - x.state.value)) = y - C *ᵥ x.state.value := by
      rw [mulVec_sub]; funext i; simp
    rw [this]
    unfold postMean kGain
    abel
  have hSd : (gnS (vecIekf proc rejD chi tol iters ls) x (linMeas C R y (some t)) ⟨v, some t⟩).det ≠ 0 := by
    show (symmetrize (C * ((1 : Mat n n) * x.cov * (1 : Mat n n)ᵀ) * Cᵀ + R)).det ≠ 0
    simp only [Matrix.one_mul, transpose_one, Matrix.mul_one]
    rw [hsym]
    exact pd_det hS
  rw [gnPass_noreject (vecIekf proc rejD chi tol iters ls) (lsFuel + 1) x (linMeas C R y (some t))
    ⟨v, some t⟩ (C *ᵥ v) rfl (pd_det hP) (pd_det hR) hSd, hdir]
  have htol : (vecIekf proc rejD chi tol iters ls).stepTol = tol := rfl
  have hlsq : (vecIekf proc rejD chi tol iters ls).lineSearch = ls := rfl
  rw [htol, hlsq]
  have hplus : ∀ d, (vecIekf proc rejD chi tol iters ls).plusSt ⟨v, some t⟩ d = ⟨v + d, some t⟩ :=
    fun _ => rfl
  by_cases hsmall : npNorm (postMean x C R y - v) < tol
  · rw [if_pos hsmall, if_pos hsmall]
  · rw [if_neg hsmall, if_neg hsmall]
    cases ls
    · simp only [Bool.false_eq_true, if_false]
      rw [hplus, add_sub_cancel]
    · obtain ⟨h0, h1⟩ := h01 rfl
      simp only [if_true]
      unfold IekfEnv.lineSearchLoop
      rw [htol, if_pos h1]
      simp only [one_smul]
      rw [hplus, add_sub_cancel]
      have hev : (linMeas C R y (some t)).model.evaluate ⟨postMean x C R y, some t⟩
        = some (C *ᵥ postMean x C R y) := rfl
      rw [hev]
      simp only [measMinus, bind, Except.bind]
      rw [if_pos]
      have hne : v ≠ postMean x C R y := by
        intro hv
        apply hsmall
        rw [hv]
        simp [npNorm, h0]
      have hsq := complete_square hP C hR x.state.value y v
      simp only at hsq
      have hpos := pd_dot (info_pd hP C hR) (sub_ne_zero.2 hne)
      show (1 / 2) * ((postMean x C R y - x.state.value) ⬝ᵥ x.cov⁻¹ *ᵥ (postMean x C R y - x.state.value)
          + (y - C *ᵥ postMean x C R y) ⬝ᵥ R⁻¹ *ᵥ (y - C *ᵥ postMean x C R y))
        < (1 / 2) * ((v - x.state.value) ⬝ᵥ x.cov⁻¹ *ᵥ (v - x.state.value)
          + (y - C *ᵥ v) ⬝ᵥ R⁻¹ *ᵥ (y - C *ᵥ v))
      rw [hsq]
      unfold postMean at hpos ⊢
      linarith

include hR hP in
theorem gnLoop_linear (lsFuel : ℕ) (h01 : ls = true → 0 < tol ∧ tol < 1) (k : ℕ) (tr) :
    ∃ tr', (vecIekf proc rejD chi tol iters ls).gnLoop (lsFuel + 1) x (linMeas C R y (some t)) false
        k ⟨postMean x C R y, some t⟩ tr = .ok (false, ⟨postMean x C R y, some t⟩, tr') := by
  induction k generalizing tr with
  | zero => exact ⟨_, rfl⟩
  | succ k ih =>
    unfold IekfEnv.gnLoop
    rw [gnPass_linear proc rejD chi tol iters ls C R hR y t x hP lsFuel _ h01]
    split
    · exact ⟨_, rfl⟩
    · exact ih _

include hR hP in
/-- **C11.** On a vector state with a linear measurement, for every `max_iters ≥ 1` and with or without line search
(with line search: step tolerance in `(0,1)`), the iterated filter returns the EKF
covariance, and the EKF mean unless the very first step is shorter than `step_tol`, in which case
the mean is left unchanged (so it differs from the EKF mean by less than `step_tol`). -/
theorem C11_iekf_linear_eq_ekf (lsFuel : ℕ) (hx : x.state.stamp = some t)
    (hit : iters ≠ 0) (h01 : ls = true → 0 < tol ∧ tol < 1) :
    ∃ xe xi,
      (vecEnv proc rejD chi).correct x (linMeas C R y (some t)) none none (some false) = .ok xe ∧
      (vecIekf proc rejD chi tol iters ls).correctI (lsFuel + 1) x (linMeas C R y (some t)) none none
        (some false) = .ok xi ∧
      xi.cov = xe.cov ∧ xi.state.stamp = xe.state.stamp ∧
      (¬ npNorm (xe.state.value - x.state.value) < tol → xi.state.value = xe.state.value) ∧
      (npNorm (xe.state.value - x.state.value) < tol → xi.state.value = x.state.value) := by
  refine ⟨_, { state := if npNorm (postMean x C R y - x.state.value) < tol then x.state
      else ⟨postMean x C R y, some t⟩, cov := kCov x.cov C R },
    correct_linear proc rejD chi C R hR y t x hP.posSemidef hx, ?_, rfl, ?_, ?_, ?_⟩
  · have hadv : (vecIekf proc rejD chi tol iters ls).advanceI x (linMeas C R y (some t)) none = .ok x := by
      unfold IekfEnv.advanceI
      simp [hx, linMeas]
    have hS : (C * x.cov * Cᵀ + R).PosDef := innov_pd hP.posSemidef C hR
    have hsym : symmetrize (C * x.cov * Cᵀ + R) = C * x.cov * Cᵀ + R :=
      symmetrize_eq (psd_symm hS.posSemidef)
    have hfin : ∀ s : St (Vec n), (vecIekf proc rejD chi tol iters ls).finish x
        (linMeas C R y (some t)) none s = .ok { state := s, cov := kCov x.cov C R } := by
      intro s
      unfold IekfEnv.finish
      simp only [vecIekf, linMeas, linMeasModel, bind, Except.bind, pure, Except.pure,
        Matrix.one_mul, transpose_one, Matrix.mul_one]
      show Except.bind (solve (symmetrize (C * x.cov * Cᵀ + R : Mat m m))ᵀ (x.cov * Cᵀ)ᵀ)
        (fun v => Except.ok ({ state := s, cov := (1 - vᵀ * C) * x.cov } : SWC (Vec n) n)) = _
      rw [hsym, solve_ok (by rw [det_transpose]; exact pd_det hS)]
      simp only [Except.bind]
      simp only [transpose_mul, transpose_transpose, transpose_nonsing_inv]
      unfold kCov kGain
      simp only [Matrix.mul_assoc]
    have hloop : ∃ tr', (vecIekf proc rejD chi tol iters ls).gnLoop (lsFuel + 1) x
        (linMeas C R y (some t)) false iters x.state [] = .ok (false,
          (if npNorm (postMean x C R y - x.state.value) < tol then x.state
            else ⟨postMean x C R y, some t⟩), tr') := by
      obtain ⟨k, rfl⟩ := Nat.exists_eq_succ_of_ne_zero hit
      have hs : x.state = ⟨x.state.value, some t⟩ := by
        rcases hxs : x.state with ⟨v, s⟩
        rw [hxs] at hx; simp at hx; rw [hx]
      unfold IekfEnv.gnLoop
      conv => enter [1, tr', 1, 1]; rw [hs]
      rw [gnPass_linear proc rejD chi tol (k + 1) ls C R hR y t x hP lsFuel _ h01]
      split
      · exact ⟨_, rfl⟩
      · obtain ⟨tr', h⟩ := gnLoop_linear proc rejD chi tol (k + 1) ls C R hR y t x hP lsFuel h01 k
          [⟨postMean x C R y, some t⟩]
        exact ⟨tr', h⟩
    obtain ⟨tr', hloop⟩ := hloop
    unfold IekfEnv.correctI IekfEnv.correctT
    rw [hadv]
    simp only [bind, Except.bind, Option.getD_some]
    unfold IekfEnv.fuseI
    have hit' : (vecIekf proc rejD chi tol iters ls).maxIters = iters := rfl
    rw [hit', if_neg hit]
    rw [hloop]
    simp only [bind, Except.bind, Bool.false_eq_true, if_false, IekfEnv.conclude]
    rw [hfin]
    simp only [pure, Except.pure, Except.map]
    rw [symmetrize_eq (psd_symm (kCov_psd hP.posSemidef C hR))]
  · simp only
    split
    · exact hx
    · rfl
  · intro h
    have h' : ¬ npNorm (postMean x C R y - x.state.value) < tol := h
    show (if npNorm (postMean x C R y - x.state.value) < tol then x.state
      else ⟨postMean x C R y, some t⟩).value = _
    rw [if_neg h']
    rfl
  · intro h
    have h' : npNorm (postMean x C R y - x.state.value) < tol := h
    show (if npNorm (postMean x C R y - x.state.value) < tol then x.state
      else ⟨postMean x C R y, some t⟩).value = _
    rw [if_pos h']

end linear

/-- Non-vacuity of C11 (and, with it, of C10): a scalar instance in which all hypotheses hold. -/
example : ∃ xi, (vecIekf walk1 false (fun _ => 6) (1 / 10000) 200 true).correctI 1 (est1 0) (meas1 0)
    none none (some false) = .ok xi := by
  obtain ⟨_, xi, _, h, _⟩ := C11_iekf_linear_eq_ekf walk1 false (fun _ => 6) (1 / 10000) 200 true
    (m := 1) 1 1 PosDef.one (fun _ => 2) 0 (est1 0) PosDef.one 0 rfl (by norm_num)
    (fun _ => by norm_num)
  exact ⟨xi, h⟩

/-! ### C12: errors and rejection -/

/-- **C12.** `RuntimeError` exactly when the measurement is older than the state. -/
theorem C12_old_measurement (f : IekfEnv V U n) (lsFuel : ℕ) (x : SWC V n) (y : Meas V n)
    (u : Option (Inp U)) (xjac : Option (St V)) (rej : Option Bool) (tx ty : ℝ)
    (hx : x.state.stamp = some tx) (hy : y.stamp = some ty) (hlt : ty < tx) :
    f.correctI lsFuel x y u xjac rej = .error .runtimeError := by
  have : f.advanceI x y u = .error .runtimeError := by
    unfold IekfEnv.advanceI
    simp only [hx, hy]
    rw [if_pos (by linarith)]
  unfold IekfEnv.correctI IekfEnv.correctT
  rw [this]; rfl

/-- **C12.** With `max_iters = 0` the call never returns a result. -/
theorem C12_zero_iters (f : IekfEnv V U n) (h0 : f.maxIters = 0) (lsFuel : ℕ) (x : SWC V n)
    (y : Meas V n) (xjac : Option (St V)) (rej : Option Bool) (t : ℝ)
    (hx : x.state.stamp = some t) (hy : y.stamp = some t) (u : Option (Inp U)) :
    f.correctI lsFuel x y u xjac rej = .error .unboundLocal := by
  have : f.advanceI x y u = .ok x := by
    unfold IekfEnv.advanceI
    simp only [hx, hy, sub_self]
    rw [if_neg (by norm_num)]
    rcases u with _ | u
    · rfl
    · simp
  unfold IekfEnv.correctI IekfEnv.correctT
  rw [this]
  simp only [bind, Except.bind]
  unfold IekfEnv.fuseI
  rw [if_pos h0]; rfl

/-- **C12.** A measurement model returning `None` is not skipped but makes the iterated filter fail with
`AttributeError` (unlike `ExtendedKalmanFilter.correct`, which skips it: C06). -/
theorem C12_none_raises (f : IekfEnv V U n) (h0 : f.maxIters ≠ 0) (lsFuel : ℕ) (x : SWC V n)
    (y : Meas V n) (xjac : Option (St V)) (rej : Option Bool) (t : ℝ)
    (hx : x.state.stamp = some t) (hy : y.stamp = some t) (u : Option (Inp U))
    (hn : y.model.evaluate x.state = none) :
    f.correctI lsFuel x y u xjac rej = .error .attributeError := by
  have : f.advanceI x y u = .ok x := by
    unfold IekfEnv.advanceI
    simp only [hx, hy, sub_self]
    rw [if_neg (by norm_num)]
    rcases u with _ | u
    · rfl
    · simp
  obtain ⟨k, hk⟩ := Nat.exists_eq_succ_of_ne_zero h0
  unfold IekfEnv.correctI IekfEnv.correctT
  rw [this]
  simp only [bind, Except.bind]
  unfold IekfEnv.fuseI
  rw [if_neg h0, hk]
  unfold IekfEnv.gnLoop IekfEnv.gnPass
  rw [hn]
  rfl

/-- **C12.** A measurement rejected at ANY pass of the iteration leaves value and stamp of the prior unchanged,
whatever steps were taken before the rejection, and only symmetrizes the covariance. -/
theorem C12_outlier_any_pass (f : IekfEnv V U n) (h0 : f.maxIters ≠ 0) (lsFuel : ℕ) (x xp : SWC V n)
    (y : Meas V n) (xjac : Option (St V)) (u : Option (Inp U)) (hadv : f.advanceI x y u = .ok xp) (xop : St V)
    (tr : List (St V)) (hout : f.gnLoop lsFuel xp y true f.maxIters xp.state [] = .ok (true, xop, tr)) :
    f.correctI lsFuel x y u xjac (some true) = .ok { xp with cov := symmetrize xp.cov } := by
  unfold IekfEnv.correctI IekfEnv.correctT
  rw [hadv]
  simp only [bind, Except.bind]
  unfold IekfEnv.fuseI
  rw [if_neg h0]
  simp only [Option.getD_some, hout, bind, Except.bind]
  rfl

/-- **C12.** A measurement rejected by the NIS test at the prior mean leaves value and stamp unchanged
and only symmetrizes the covariance. (`J`, `S` as computed by the code at the prior mean.) -/
theorem C12_outlier (f : IekfEnv V U n) (h0 : f.maxIters ≠ 0) (lsFuel : ℕ) (x : SWC V n)
    (y : Meas V n) (xjac : Option (St V)) (t : ℝ) (hx : x.state.stamp = some t)
    (hy : y.stamp = some t) (u : Option (Inp U)) (yc : Vec y.m)
    (he : y.model.evaluate x.state = some yc)
    (hP : x.cov.det ≠ 0) (hR : (y.model.covariance x.state).det ≠ 0)
    (J : Mat n n) (hJ : J = f.plusJac x.state.value (f.minus x.state.value x.state.value))
    (S : Mat y.m y.m) (hS : S = symmetrize (y.model.jacobian x.state * (J * x.cov * Jᵀ)
      * (y.model.jacobian x.state)ᵀ + y.model.covariance x.state)) (hd : S.det ≠ 0)
    (hout : (y.value - yc) ⬝ᵥ S⁻¹ *ᵥ (y.value - yc) > f.chi2ppf99 y.m) :
    f.correctI lsFuel x y u xjac (some true) = .ok { x with cov := symmetrize x.cov } := by
  have : f.advanceI x y u = .ok x := by
    unfold IekfEnv.advanceI
    simp only [hx, hy, sub_self]
    rw [if_neg (by norm_num)]
    rcases u with _ | u
    · rfl
    · simp
  obtain ⟨k, hk⟩ := Nat.exists_eq_succ_of_ne_zero h0
  unfold IekfEnv.correctI IekfEnv.correctT
  rw [this]
  simp only [bind, Except.bind]
  unfold IekfEnv.fuseI
  rw [if_neg h0, hk]
  have hpass : f.gnPass lsFuel x y true x.state = .ok .outlier := by
    unfold IekfEnv.gnPass
    simp only [he, measMinus, npInv_of_det hP, npInv_of_det hR, bind, Except.bind, maybeOutlier,
      if_true]
    rw [← hJ, ← hS]
    have hz : (fun i => y.value i - yc i) = y.value - yc := rfl
    rw [hz, checkOutlier_ok hd]
    simp only [hout, decide_true, if_true]
  unfold IekfEnv.gnLoop
  simp only [Option.getD_some, hpass, bind, Except.bind]
  rfl

/-- Non-vacuity of `C12_outlier`: a scalar measurement `100 ± 1` against the prior `0 ± 1` is rejected. -/
example : (vecIekf walk1 true (fun _ => 6) (1 / 10000) 5 true).correctI 3 (est1 0)
    (linMeas (m := 1) 1 1 (fun _ => 100) (some 0)) none none (some true)
    = .ok { est1 0 with cov := symmetrize (est1 0).cov } := by
  refine C12_outlier (vecIekf walk1 true (fun _ => 6) (1 / 10000) 5 true) (by simp [vecIekf]) 3 (est1 0)
    (linMeas (m := 1) 1 1 (fun _ => 100) (some 0)) none 0 rfl rfl none (fun _ => 0) ?_ ?_ ?_ 1 rfl
    ((2 : ℝ) • (1 : Mat 1 1)) ?_ ?_ ?_
  · simp [linMeas, linMeasModel, est1]
  · simp [est1]
  · simp [linMeas, linMeasModel]
  · have h : (2 : ℝ) • (1 : Mat 1 1) = symmetrize ((1 : Mat 1 1) * ((1 : Mat 1 1) * (1 : Mat 1 1)
        * (1 : Mat 1 1)ᵀ) * (1 : Mat 1 1)ᵀ + (1 : Mat 1 1)) := by
      ext i j
      fin_cases i; fin_cases j
      simp [symmetrize]
      norm_num
    exact h
  · show ((2 : ℝ) • (1 : Mat 1 1)).det ≠ 0
    simp
  · have : ((2 : ℝ) • (1 : Mat 1 1))⁻¹ = (1 / 2 : ℝ) • (1 : Mat 1 1) := by
      apply inv_eq_right_inv
      ext i j; fin_cases i; fin_cases j; simp
    show ((fun _ => 100 : Vec 1) - (fun _ => 0 : Vec 1)) ⬝ᵥ ((2 : ℝ) • (1 : Mat 1 1))⁻¹ *ᵥ
      ((fun _ => 100 : Vec 1) - (fun _ => 0 : Vec 1)) > (6 : ℝ)
    rw [this]
    simp [dotProduct, smul_mulVec]
    norm_num

/-- Non-vacuity of `C12_old_measurement`. -/
example : (vecIekf walk1 true (fun _ => 6) (1 / 10000) 5 true).correctI 3 (est1 1) (meas1 0) none none
    none = .error .runtimeError :=
  C12_old_measurement _ _ _ _ _ _ _ 1 0 rfl rfl (by norm_num)

/-- Non-vacuity of `C12_zero_iters`. -/
example : (vecIekf walk1 true (fun _ => 6) (1 / 10000) 0 true).correctI 3 (est1 1) (meas1 1) none none
    none = .error .unboundLocal :=
  C12_zero_iters _ rfl _ _ _ _ _ 1 rfl rfl _

end Verif
