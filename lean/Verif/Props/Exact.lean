import Verif.Props.Ekf
import Verif.Props.RunFilter
import Verif.Props.States
import Verif.Props.LinearProblem

/-!
Exact characterizations for the properties whose unrestricted English claim is false in the code: for every
input, what the code does instead (C07, C08, C23, C34, C39, C41).
-/

namespace Verif

open Matrix

set_option linter.unusedVariables false
set_option linter.unusedSectionVars false

section Ekf

variable {V U : Type} {n : ℕ}

/-- The fusion step never raises `RuntimeError`. -/
theorem fuse_not_runtime (e : EkfEnv V U n) (x : SWC V n) (y : Meas V n) (xjac : Option (St V)) (rej : Bool) :
    e.fuse x y xjac rej ≠ .error .runtimeError := by
  intro h
  cases hm : y.model.evaluate x.state with
  | none => rw [fuse_none e x y xjac _ hm] at h; cases h
  | some yc =>
    by_cases hd : (innovCov x y xjac).det = 0
    · rw [fuse_singular e x y xjac _ yc hm hd] at h; cases h
    · cases rej with
      | false => rw [fuse_noreject e x y xjac yc hm hd] at h; cases h
      | true =>
        rw [fuse_reject e x y xjac yc hm hd, fuse_noreject e x y xjac yc hm hd] at h
        split at h <;> cases h

/-- **C07, exact.** For every filter, estimate, measurement and input (with a stamped state and measurement),
`correct` refuses a measurement (raises `RuntimeError`) exactly when it is more than `1e10` seconds older than the
state. -/
theorem C07_exact (e : EkfEnv V U n) (x : SWC V n) (y : Meas V n) (u : Option (Inp U)) (xjac : Option (St V))
    (rej : Option Bool) (tx ty : ℝ) (hx : x.state.stamp = some tx) (hy : y.stamp = some ty) :
    e.correct x y u xjac rej = .error .runtimeError ↔ ty - tx < -(10 ^ 10 : ℝ) := by
  constructor
  · intro h
    by_contra hn
    have ha : ∃ x', e.advance x y u = .ok x' := by
      unfold EkfEnv.advance
      simp only [hx, hy]
      rw [if_neg hn]
      rcases u with _ | u
      · exact ⟨_, rfl⟩
      · simp only []
        split
        · rename_i h1
          rw [predict_some_some e x u tx _ none hx (le_of_lt (lt_trans (by positivity) h1))]
          exact ⟨_, rfl⟩
        · exact ⟨_, rfl⟩
    obtain ⟨x', ha⟩ := ha
    unfold EkfEnv.correct EkfEnv.correctD at h
    rw [ha] at h
    have hf := fuse_not_runtime e x' y xjac (rej.getD e.rejectOutliers)
    change Except.map Prod.fst (e.fuse x' y xjac (rej.getD e.rejectOutliers)) = _ at h
    cases hr : e.fuse x' y xjac (rej.getD e.rejectOutliers) with
    | ok r => rw [hr] at h; cases h
    | error er =>
      rw [hr] at h hf
      exact hf (by rw [show er = Err.runtimeError from Except.error.inj h])
  · intro h
    have ha : e.advance x y u = .error .runtimeError := by
      unfold EkfEnv.advance
      simp only [hx, hy]
      rw [if_pos h]
    unfold EkfEnv.correct EkfEnv.correctD
    rw [ha]; rfl

/-- **C07, exact.** Every other measurement that is not newer than the state is fused exactly as if it had been
taken at the time of the state. -/
theorem C07_treated_as_current (e : EkfEnv V U n) (x : SWC V n) (y : Meas V n) (u : Option (Inp U))
    (xjac : Option (St V)) (rej : Option Bool) (tx ty : ℝ) (hx : x.state.stamp = some tx)
    (hy : y.stamp = some ty) (h1 : tx - 10 ^ 10 ≤ ty) (h2 : ty ≤ tx) :
    e.correct x y u xjac rej = e.correct x { y with stamp := some tx } u xjac rej := by
  unfold EkfEnv.correct
  rw [C06_no_predict e x y u xjac rej tx ty hx hy (by linarith) (by
      have : (0 : ℝ) ≤ 1 / 10 ^ 11 := by positivity
      linarith),
    C06_no_predict e x { y with stamp := some tx } u xjac rej tx tx hx rfl (by rw [sub_self]; norm_num)
      (by rw [sub_self]; positivity)]
  congr 1
  rcases y with ⟨m, v, st, mod⟩
  unfold EkfEnv.fuse
  simp only []
  cases mod.evaluate x.state <;> rfl

/-- The hypotheses of `C07_exact` and `C07_treated_as_current` hold of an hour-old measurement, which is therefore
not refused. -/
example : env1.correct (est1 3600) (meas1 0) (some ⟨0, some 3600⟩) none none ≠ .error .runtimeError := by
  rw [Ne, C07_exact env1 (est1 3600) (meas1 0) _ none none 3600 0 rfl rfl]
  norm_num

/-- The process model with its noise covariance frozen at the state `xj`. -/
def ProcModel.freezeCov (p : ProcModel V U n) (xj : St V) : ProcModel V U n :=
  { p with covariance := fun _ u d => p.covariance xj u d }

/-- The measurement with its model's noise covariance frozen at the state `xj`. -/
def Meas.freezeCov (y : Meas V n) (xj : St V) : Meas V n :=
  { y with model := { y.model with covariance := fun _ => y.model.covariance xj } }

/-- **C08, exact.** `predict(x, u, dt, x_jac)` is, for every model, estimate and `x_jac`, the prediction WITHOUT
`x_jac` in which the process noise covariance is that of `x_jac`; every Jacobian is still the one at the current
estimate. -/
theorem C08_predict_exact (e : EkfEnv V U n) (x : SWC V n) (u : Option (Inp U)) (dt : Option ℝ) (xj : St V) :
    e.predict x u dt (some xj) =
      ({ e with proc := e.proc.freezeCov xj } : EkfEnv V U n).predict x u dt none := rfl

/-- **C08, exact.** `correct(x, y, u, x_jac)` is the correction WITHOUT `x_jac` in which the measurement noise
covariance is that of `x_jac`. -/
theorem C08_correct_exact (e : EkfEnv V U n) (x : SWC V n) (y : Meas V n) (u : Option (Inp U)) (xj : St V)
    (rej : Option Bool) :
    e.correct x y u (some xj) rej = e.correct x (y.freezeCov xj) u none rej := by
  unfold EkfEnv.correct EkfEnv.correctD
  have ha : e.advance x (y.freezeCov xj) u = e.advance x y u := rfl
  rw [ha]
  cases e.advance x y u with
  | error er => rfl
  | ok x' =>
    show Except.map Prod.fst (e.fuse x' y (some xj) _) = Except.map Prod.fst (e.fuse x' (y.freezeCov xj) none _)
    congr 1
    rcases y with ⟨m, v, st, mod⟩
    unfold EkfEnv.fuse Meas.freezeCov
    simp only [Option.getD_some]
    cases mod.evaluate x'.state <;> rfl

end Ekf

/-! ### C23 -/

section Run

variable {X I Y : Type}

open Classical in
/-- The entries of a log that `run_filter` keeps: those not older than `t0` if there is one, otherwise ALL. -/
noncomputable def kept {α : Type} (stamp : α → ℝ) (t0 : ℝ) (l : List α) : List α :=
  if ∃ a ∈ l, t0 ≤ stamp a then retained stamp t0 l else sortByStamp stamp l

theorem dropBefore_kept {α : Type} (stamp : α → ℝ) (t0 : ℝ) (l : List α) :
    dropBefore stamp t0 (sortByStamp stamp l) = kept stamp t0 l := by
  unfold kept
  split
  · rename_i h
    exact dropBefore_fresh _ _ _ (.inr h)
  · rename_i h
    exact dropBefore_stale _ _ _ (fun a ha => not_le.1 fun hh => h ⟨a, ha, hh⟩)

theorem kept_sorted {α : Type} (stamp : α → ℝ) (t0 : ℝ) (l : List α) : TimeSorted stamp (kept stamp t0 l) := by
  unfold kept
  split
  · exact (sortByStamp_sorted _ _).filter _ _
  · exact sortByStamp_sorted _ _

/-- **C23, exact.** For every filter and every log, `run_filter` performs the documented schedule on the kept
entries. -/
theorem C23_exact (f : FilterApi X I Y) (x0 : X) (t0 : ℝ) (hx : f.xstamp x0 = some t0)
    (ins : List I) (meas : List Y) :
    runFilter f x0 ins meas =
      exec f (schedule f.istamp f.ystamp true (kept f.istamp t0 ins) (kept f.ystamp t0 meas)) x0 := by
  have e : runFilter f x0 ins meas = runLoop f (dropBefore f.istamp t0 (sortByStamp f.istamp ins))
      (dropBefore f.ystamp t0 (sortByStamp f.ystamp meas)) x0 := by
    unfold runFilter; rw [hx]
  rw [e, dropBefore_kept, dropBefore_kept]
  have hI := kept_sorted f.istamp t0 ins
  have hY := kept_sorted f.ystamp t0 meas
  generalize kept f.istamp t0 ins = IS at *
  cases IS with
  | nil => rfl
  | cons u us =>
    rw [← runLoop_eq_exec f _ hY true u us hI x0]
    congr 1
    symm
    rw [List.filter_eq_self]
    intro a _; simp

/-- **C23, exact.** With at least two inputs not older than `x0`, a stale measurement is fused iff there are
measurements and all of them are stale. -/
theorem C23_stale_iff (is : I → ℝ) (ys : Y → ℝ) (t0 : ℝ) (ins : List I) (meas : List Y)
    (hi : 2 ≤ (retained is t0 ins).length) :
    (∃ y ∈ fused (schedule is ys true (kept is t0 ins) (kept ys t0 meas)), ys y < t0) ↔
      meas ≠ [] ∧ ∀ y ∈ meas, ys y < t0 := by
  classical
  have hfresh : ∃ a ∈ ins, t0 ≤ is a := by
    obtain ⟨u, hu⟩ := List.exists_mem_of_length_pos (l := retained is t0 ins) (by omega)
    have := List.mem_filter.1 hu
    exact ⟨u, (sortByStamp_mem _).1 this.1, by simpa using this.2⟩
  have hk : kept is t0 ins = retained is t0 ins := by unfold kept; rw [if_pos hfresh]
  have hI : TimeSorted is (retained is t0 ins) := (sortByStamp_sorted _ _).filter _ _
  have hmem : ∀ u ∈ retained is t0 ins, t0 ≤ is u := by
    intro a ha
    simpa using (List.mem_filter.1 ha).2
  have hY := kept_sorted ys t0 meas
  rw [hk]
  generalize retained is t0 ins = IS at *
  match IS, hI, hi, hmem with
  | u :: u' :: us, hI, _, hmem =>
    rw [fused_schedule _ _ _ hY true u u' us hI]
    have hlast : t0 ≤ is ((u' :: us).getLast (by simp)) :=
      hmem _ (List.mem_cons_of_mem _ (List.getLast_mem _))
    constructor
    · rintro ⟨y, hy, hlt⟩
      have hy' := (List.mem_filter.1 hy).1
      by_cases hf : ∃ a ∈ meas, t0 ≤ ys a
      · unfold kept at hy'
        rw [if_pos hf] at hy'
        have := (List.mem_filter.1 hy').2
        simp at this
        linarith
      · unfold kept at hy'
        rw [if_neg hf] at hy'
        refine ⟨?_, fun a ha => not_le.1 fun hh => hf ⟨a, ha, hh⟩⟩
        rintro rfl
        have := (sortByStamp_mem _).1 hy'
        simp at this
    · rintro ⟨hne, hall⟩
      obtain ⟨y, hy⟩ := List.exists_mem_of_ne_nil _ hne
      refine ⟨y, List.mem_filter.2 ⟨?_, ?_⟩, hall y hy⟩
      · unfold kept
        rw [if_neg (by rintro ⟨a, ha, hh⟩; exact absurd (hall a ha) (not_lt.2 hh))]
        exact (sortByStamp_mem _).2 hy
      · have := hall y hy
        simp
        linarith

end Run

/-! ### C34 -/

/-- **C34, exact.** `random` returns a state of its own class exactly for the classes other than `SE3State`, whose
`random` returns an `SE2State`. -/
theorem C34_exact (c : LieClass) :
    (c.randomClass = c ↔ c ≠ .SE3State) ∧ (c = .SE3State → c.randomClass = .SE2State) := by
  cases c <;> simp [LieClass.randomClass]

/-! ### C39, C41 -/

section Prob

variable {K S : Type} [DecidableEq K]

/-- The losses that one `add_residual(rs, loss)` call adds. -/
def LossArg.toList (rs : List (Residual K S)) : LossArg → List Loss
  | .one l => rs.map fun _ => l
  | .many ls => ls

/-- A history of `add_residual` calls. -/
def Prob.addHistory (P : Prob K S) (calls : List (List (Residual K S) × LossArg)) : Prob K S :=
  calls.foldl (fun P c => P.addResiduals c.1 c.2) P

theorem addHistory_lists (P : Prob K S) (calls : List (List (Residual K S) × LossArg)) :
    (P.addHistory calls).residuals = P.residuals ++ calls.flatMap (fun c => c.1) ∧
    (P.addHistory calls).losses = P.losses ++ calls.flatMap (fun c => c.2.toList c.1) := by
  induction calls generalizing P with
  | nil => simp [Prob.addHistory]
  | cons c cs ih =>
    have := ih (P.addResiduals c.1 c.2)
    have e1 : (P.addResiduals c.1 c.2).residuals = P.residuals ++ c.1 := rfl
    have e2 : (P.addResiduals c.1 c.2).losses = P.losses ++ c.2.toList c.1 := by
      rcases c with ⟨rs, l | ls⟩ <;> rfl
    rw [e1, e2] at this
    constructor
    · rw [List.flatMap_cons, ← List.append_assoc]; exact this.1
    · rw [List.flatMap_cons, ← List.append_assoc]; exact this.2

/-- **C39, exact.** Over any history of `add_residual` calls on a new problem, the residual–loss pairs that are
evaluated are the first residual of all calls with the first loss of all calls, the second with the second, and so
on, up to the shorter of the two lists. -/
theorem C39_exact (cfg : ProbCfg) (calls : List (List (Residual K S) × LossArg)) :
    ((Prob.new cfg : Prob K S).addHistory calls).residuals.zip
        ((Prob.new cfg : Prob K S).addHistory calls).losses =
      (calls.flatMap fun c => c.1).zip (calls.flatMap fun c => c.2.toList c.1) := by
  obtain ⟨h1, h2⟩ := addHistory_lists (Prob.new cfg : Prob K S) calls
  rw [h1, h2]
  rfl

/-- **C39, exact.** Every residual contributes iff there are at least as many losses as residuals in total. -/
theorem C39_all_contribute_iff (cfg : ProbCfg) (calls : List (List (Residual K S) × LossArg)) :
    (((Prob.new cfg : Prob K S).addHistory calls).residuals.zip
        ((Prob.new cfg : Prob K S).addHistory calls).losses).map Prod.fst =
        calls.flatMap (fun c => c.1) ↔
      (calls.flatMap fun c => c.1).length ≤ (calls.flatMap fun c => c.2.toList c.1).length := by
  rw [C39_exact]
  constructor
  · intro h
    have := congrArg List.length h
    rw [List.length_map, List.length_zip] at this
    omega
  · intro h
    exact List.map_fst_zip h

/-- **C39, exact.** If every call brings one loss or as many losses as residuals, each residual is evaluated with
the loss it was added with. -/
theorem C39_own_losses (cfg : ProbCfg) (calls : List (List (Residual K S) × LossArg))
    (h : ∀ c ∈ calls, (c.2.toList c.1).length = c.1.length) :
    ((Prob.new cfg : Prob K S).addHistory calls).residuals.zip
        ((Prob.new cfg : Prob K S).addHistory calls).losses =
      calls.flatMap fun c => c.1.zip (c.2.toList c.1) := by
  rw [C39_exact]
  induction calls with
  | nil => rfl
  | cons c cs ih =>
    rw [List.flatMap_cons, List.flatMap_cons, List.flatMap_cons,
      List.zip_append (h c (by simp)).symm, ih fun d hd => h d (by simp [hd])]

/-- The hypothesis of `C39_own_losses` holds for a call with one loss and a call with two residuals and losses. -/
example (r : Residual K S) (l l' : Loss) :
    ∀ c ∈ ([([r, r], .one l), ([r, r], .many [l, l'])] : List (List (Residual K S) × LossArg)),
      (c.2.toList c.1).length = c.1.length := by
  intro c hc
  simp at hc
  rcases hc with rfl | rfl <;> rfl

/-- One call of the `Problem` API. -/
inductive ProbOp (K S : Type) where
  | addResiduals (rs : List (Residual K S)) (la : LossArg)
  | addVariable (k : K) (x : S)
  | setConstant (ks : List K)
  | solve
  | query (k1 k2 : K)

/-- Execute one call. -/
noncomputable def Prob.step (o : VarOps S) (P : Prob K S) : ProbOp K S → Except Err (Prob K S)
  | .addResiduals rs la => .ok (P.addResiduals rs la)
  | .addVariable k x => .ok (P.addVariable k x)
  | .setConstant ks => .ok (P.setConstant ks)
  | .solve => P.solve o
  | .query k1 k2 => (P.getCovarianceBlock k1 k2).map Prod.snd

/-- Execute a history of calls. -/
noncomputable def Prob.runOps (o : VarOps S) (P : Prob K S) (ops : List (ProbOp K S)) : Except Err (Prob K S) :=
  ops.foldlM (fun P op => P.step o op) P

/-- A query with an invertible information matrix: the queries that compute a covariance if none is cached. -/
def GoodQuery (P : Prob K S) (op : ProbOp K S) (A : SqMat) : Prop :=
  (∃ k1 k2, op = .query k1 k2) ∧ P.info = some A ∧ A.2.det ≠ 0

theorem step_cov (o : VarOps S) (P P' : Prob K S) (op : ProbOp K S) (h : P.step o op = .ok P') :
    (∀ M, P.cov = some M → P'.cov = some M) ∧
    (P.cov = none → ∀ A, GoodQuery P op A → P'.cov = some ⟨A.1, A.2⁻¹⟩) ∧
    (P.cov = none → (∀ A, ¬ GoodQuery P op A) → P'.cov = none) := by
  cases op with
  | addResiduals rs la =>
    cases h
    exact ⟨fun M hM => hM, fun _ A ⟨⟨k1, k2, hk⟩, _⟩ => (by cases hk), fun hn _ => hn⟩
  | addVariable k x =>
    cases h
    exact ⟨fun M hM => hM, fun _ A ⟨⟨k1, k2, hk⟩, _⟩ => (by cases hk), fun hn _ => hn⟩
  | setConstant ks =>
    cases h
    exact ⟨fun M hM => hM, fun _ A ⟨⟨k1, k2, hk⟩, _⟩ => (by cases hk), fun hn _ => hn⟩
  | solve =>
    have hc := solve_cov o P P' h
    exact ⟨fun M hM => by rw [hc, hM], fun _ A ⟨⟨k1, k2, hk⟩, _⟩ => (by cases hk),
      fun hn _ => by rw [hc, hn]⟩
  | query k1 k2 =>
    have hP' : P' = if P.cov.isNone then P.computeCovariance else P := by
      change (P.getCovarianceBlock k1 k2).map Prod.snd = _ at h
      unfold Prob.getCovarianceBlock at h
      simp only [] at h
      generalize (if P.cov.isNone then P.computeCovariance else P) = Q at h ⊢
      split at h
      · split at h
        · cases h
        · cases h; rfl
      · cases h; rfl
    subst hP'
    refine ⟨?_, ?_, ?_⟩
    · intro M hM
      rw [hM]
      exact hM
    · rintro hn A ⟨-, hi, hA⟩
      rw [hn]
      simp only [Option.isNone_none, if_true]
      unfold Prob.computeCovariance
      rw [hi]
      simp only []
      rw [if_neg hA]
    · intro hn hno
      rw [hn]
      simp only [Option.isNone_none, if_true]
      unfold Prob.computeCovariance
      cases hi : P.info with
      | none => exact hn
      | some A =>
        simp only []
        rw [if_pos (by by_contra hA; exact hno A ⟨⟨k1, k2, rfl⟩, hi, hA⟩)]
        exact hn

theorem runOps_cons (o : VarOps S) (P P' : Prob K S) (op : ProbOp K S) (ops : List (ProbOp K S))
    (h : P.runOps o (op :: ops) = .ok P') : ∃ Q, P.step o op = .ok Q ∧ Q.runOps o ops = .ok P' := by
  unfold Prob.runOps at h
  rw [List.foldlM_cons] at h
  exact bind_ok h

theorem runOps_keep (o : VarOps S) (P P' : Prob K S) (ops : List (ProbOp K S)) (M : SqMat)
    (h : P.runOps o ops = .ok P') (hM : P.cov = some M) : P'.cov = some M := by
  induction ops generalizing P with
  | nil => cases h; exact hM
  | cons op ops ih =>
    obtain ⟨Q, hq, hr⟩ := runOps_cons o P P' op ops h
    exact ih Q hr ((step_cov o P Q op hq).1 M hM)

/-- **C41, exact.** After any history of calls on a new problem (adding residuals, variables and constants, solving
and querying in any order), the cached covariance, which every later query reads, is the inverse of the information
matrix that was current at the FIRST query with an invertible information matrix; it is unset if there was none. -/
theorem C41_exact (o : VarOps S) (cfg : ProbCfg) (ops : List (ProbOp K S)) (P : Prob K S)
    (h : (Prob.new cfg : Prob K S).runOps o ops = .ok P) :
    (P.cov = none ∧ ∀ pre op post Q A, ops = pre ++ op :: post →
        (Prob.new cfg : Prob K S).runOps o pre = .ok Q → ¬ GoodQuery Q op A) ∨
    ∃ pre op post Q A, ops = pre ++ op :: post ∧ (Prob.new cfg : Prob K S).runOps o pre = .ok Q ∧
      GoodQuery Q op A ∧ P.cov = some ⟨A.1, A.2⁻¹⟩ ∧
      ∀ pre' op' post' Q' A', pre = pre' ++ op' :: post' →
        (Prob.new cfg : Prob K S).runOps o pre' = .ok Q' → ¬ GoodQuery Q' op' A' := by
  have key : ∀ (P0 : Prob K S), P0.cov = none → P0.runOps o ops = .ok P →
      (P.cov = none ∧ ∀ pre op post Q A, ops = pre ++ op :: post → P0.runOps o pre = .ok Q →
        ¬ GoodQuery Q op A) ∨
      ∃ pre op post Q A, ops = pre ++ op :: post ∧ P0.runOps o pre = .ok Q ∧
        GoodQuery Q op A ∧ P.cov = some ⟨A.1, A.2⁻¹⟩ ∧
        ∀ pre' op' post' Q' A', pre = pre' ++ op' :: post' → P0.runOps o pre' = .ok Q' →
          ¬ GoodQuery Q' op' A' := by
    clear h
    induction ops with
    | nil =>
      intro P0 h0 h
      cases h
      left
      refine ⟨h0, ?_⟩
      intro pre op post Q A hl
      simp at hl
    | cons op ops ih =>
      intro P0 h0 h
      obtain ⟨Q, hq, hr⟩ := runOps_cons o P0 P op ops h
      have hs := step_cov o P0 Q op hq
      by_cases hg : ∃ A, GoodQuery P0 op A
      · obtain ⟨A, hg⟩ := hg
        right
        refine ⟨[], op, ops, P0, A, rfl, rfl, hg, runOps_keep o Q P ops _ hr (hs.2.1 h0 A hg), ?_⟩
        intro pre' op' post' Q' A' hl
        simp at hl
      · have hno : ∀ A, ¬ GoodQuery P0 op A := fun A hA => hg ⟨A, hA⟩
        have hcons : ∀ pre Q', P0.runOps o (op :: pre) = .ok Q' → Q.runOps o pre = .ok Q' := by
          intro pre Q' h'
          obtain ⟨Q2, hq2, hr2⟩ := runOps_cons o P0 Q' op pre h'
          rw [hq] at hq2
          cases hq2
          exact hr2
        have hsplit : ∀ (l pre post : List (ProbOp K S)) (op2 : ProbOp K S) (Q2 : Prob K S) (A : SqMat),
            (∀ pre op' post Q' A', l = pre ++ op' :: post → Q.runOps o pre = .ok Q' → ¬ GoodQuery Q' op' A') →
            op :: l = pre ++ op2 :: post → P0.runOps o pre = .ok Q2 → ¬ GoodQuery Q2 op2 A := by
          intro l pre post op2 Q2 A hl he hr2
          cases pre with
          | nil =>
            simp at he
            cases hr2
            rw [← he.1]
            exact hno A
          | cons p pre =>
            simp at he
            obtain ⟨rfl, he⟩ := he
            exact hl pre op2 post Q2 A he (hcons pre Q2 hr2)
        rcases ih Q (hs.2.2 h0 hno) hr with ⟨hn, hall⟩ | ⟨pre, op2, post, Q2, A, he, hr2, hg2, hc, hmin⟩
        · left
          exact ⟨hn, fun pre op2 post Q2 A he hr2 => hsplit ops pre post op2 Q2 A hall he hr2⟩
        · right
          refine ⟨op :: pre, op2, post, Q2, A, by rw [he]; rfl, ?_, hg2, hc, ?_⟩
          · unfold Prob.runOps
            rw [List.foldlM_cons, hq]
            exact hr2
          · intro pre' op' post' Q' A' he' hr'
            exact hsplit pre pre' post' op' Q' A' hmin he' hr'
  exact key _ rfl h

end Prob

/-! A concrete history for C41: one scalar variable, the residual `2 x - 6` added and solved, the covariance queried, the
residual added once more and the problem solved again. -/

/-- The residual `2 x - 6`. -/
noncomputable def exRes : Residual ℕ (List ℝ) := linRes [7] [⟨1, 1, fun _ _ => 2⟩] 1 fun _ => -6

theorem exRes_linear {P : Prob ℕ (List ℝ)} (hv : P.varsInit = [(7, [0])]) (hl : P.losses = P.residuals.map fun _ => l2Loss)
    (hr : ∀ r ∈ P.residuals, r = exRes) : LinearProblem P where
  keys := by simp [hv]
  losses := hl
  residuals := by
    intro r h
    refine ⟨[7], [⟨1, 1, fun _ _ => 2⟩], 1, fun _ => -6, hr r h, by simp, rfl, ?_⟩
    intro t k J h1 h2
    cases t with
    | succ t => simp at h1
    | zero =>
      simp only [List.getElem?_cons_zero, Option.some.injEq] at h1 h2
      subst h1 h2
      exact ⟨rfl, [0], by rw [hv]; rfl, rfl⟩

/-- Solving a problem with one resp. two copies of the residual: information `4` resp. `8`. -/
theorem exRes_solve {P : Prob ℕ (List ℝ)} (hcfg : P.cfg = ⟨"GN", 5, none, none, none, 1⟩) (hv : P.varsInit = [(7, [0])])
    (hk : P.constKeys = []) (hsl : P.varSlices = [] ∨ P.varSlices = [(7, ⟨0, 1⟩)]) :
    (P.residuals = [exRes] → P.losses = [l2Loss] →
      ∃ P', P.solve vecVarOps = .ok P' ∧ P'.info = some ⟨1, !![4]⟩ ∧ P'.varSlices = [(7, ⟨0, 1⟩)] ∧ P'.cov = P.cov ∧
        P'.varsInit = P.varsInit ∧ P'.residuals = P.residuals ∧ P'.losses = P.losses ∧ P'.constKeys = P.constKeys ∧
        P'.cfg = P.cfg) ∧
    (P.residuals = [exRes, exRes] → P.losses = [l2Loss, l2Loss] →
      ∃ P', P.solve vecVarOps = .ok P' ∧ P'.info = some ⟨1, !![8]⟩ ∧ P'.varSlices = [(7, ⟨0, 1⟩)] ∧ P'.cov = P.cov) := by
  constructor
  · intro hr hl
    have hs : P.started vecVarOps = .ok { P with vars := [(7, [0])], varSlices := [(7, ⟨0, 1⟩)], resSlices := [⟨0, 1⟩], sizeErr := 1, sizeState := 1 } := by
      rcases hsl with hsl | hsl <;>
      simp [Prob.started, Prob.computeSize, hv, hr, hl, hk, hsl, exRes, rowSlices, lookupAll, dictGet, linRes, linErr, colSlices, vecVarOps,
        dictSet, bind, Except.bind, List.lookup, pure, Except.pure]
    have hlin : ({ P with vars := [(7, [0])], varSlices := [(7, ⟨0, 1⟩)], resSlices := [⟨0, 1⟩], sizeErr := 1, sizeState := 1 } : Prob ℕ (List ℝ)).linearize
        P.varsInit = .ok ⟨1, 1, fun _ => -6, fun _ _ => 2, 18⟩ := by
      simp [Prob.linearize, hv, hr, hl, hk, exRes, asmLoop, lookupAll, dictGet, linRes, linErr, bind, Except.bind, List.lookup, pure,
        Except.pure, pyGet, setSeg, Slice.len, placeJacs, DMat.setBlock, DMat.scale, DMat.zeros, l2Loss, listNorm]
      norm_num
    have hP : LinearProblem P := exRes_linear hv (by rw [hr, hl]; rfl) (by rw [hr]; simp)
    obtain ⟨P', hP'⟩ := C40_returns P _ hP (by rw [hcfg]) (by rw [hcfg]; norm_num) hs _ hlin (by
      rw [Matrix.det_fin_one]
      show (∑ i : Fin 1, (2 : ℝ) * 2) ≠ 0
      norm_num) one_pos
    have := C40_information vecVarOps P _ P' (by rw [hcfg]) hs hP' _ _ _ _ (linear_affine hP hs hlin)
    refine ⟨P', hP', ?_, this.2⟩
    rw [this.1]
    congr 2
    ext i j
    fin_cases i; fin_cases j
    show (∑ i : Fin 1, (2 : ℝ) * 2) = 4
    norm_num
  · intro hr hl
    have hs : P.started vecVarOps = .ok { P with vars := [(7, [0])], varSlices := [(7, ⟨0, 1⟩)], resSlices := [⟨0, 1⟩, ⟨1, 2⟩], sizeErr := 2, sizeState := 1 } := by
      rcases hsl with hsl | hsl <;>
      simp [Prob.started, Prob.computeSize, hv, hr, hl, hk, hsl, exRes, rowSlices, lookupAll, dictGet, linRes, linErr, colSlices, vecVarOps,
        dictSet, bind, Except.bind, List.lookup, pure, Except.pure]
    have hlin : ({ P with vars := [(7, [0])], varSlices := [(7, ⟨0, 1⟩)], resSlices := [⟨0, 1⟩, ⟨1, 2⟩], sizeErr := 2, sizeState := 1 } : Prob ℕ (List ℝ)).linearize
        P.varsInit = .ok ⟨2, 1, fun _ => -6, fun _ _ => 2, 36⟩ := by
      simp [Prob.linearize, hv, hr, hl, hk, exRes, asmLoop, lookupAll, dictGet, linRes, linErr, bind, Except.bind, List.lookup, pure,
        Except.pure, pyGet, setSeg, Slice.len, placeJacs, DMat.setBlock, DMat.scale, DMat.zeros, l2Loss, listNorm]
      norm_num
      congr 1
      · funext i; fin_cases i <;> simp
      · funext i j; fin_cases i <;> simp
    have hP : LinearProblem P := exRes_linear hv (by rw [hr, hl]; rfl) (by rw [hr]; simp)
    obtain ⟨P', hP'⟩ := C40_returns P _ hP (by rw [hcfg]) (by rw [hcfg]; norm_num) hs _ hlin (by
      rw [Matrix.det_fin_one]
      show (∑ i : Fin 2, (2 : ℝ) * 2) ≠ 0
      norm_num) one_pos
    have := C40_information vecVarOps P _ P' (by rw [hcfg]) hs hP' _ _ _ _ (linear_affine hP hs hlin)
    refine ⟨P', hP', ?_, this.2.1, this.2.2.1⟩
    rw [this.1]
    congr 2
    ext i j
    fin_cases i; fin_cases j
    show (∑ i : Fin 2, (2 : ℝ) * 2) = 8
    norm_num

/-- **C41, witness.** After this history the information matrix of the latest solve is `8`, but the covariance that is returned
is the `1/4` of the first query, twice the right `1/8`. -/
theorem C41_witness : ∃ P B, (Prob.new ⟨"GN", 5, none, none, none, 1⟩ : Prob ℕ (List ℝ)).runOps vecVarOps
      [.addVariable 7 [0], .addResiduals [exRes] (.one l2Loss), .solve, .query 7 7, .addResiduals [exRes] (.one l2Loss), .solve] = .ok P ∧
    P.info = some ⟨1, !![8]⟩ ∧ (P.getCovarianceBlock 7 7).map Prod.fst = .ok (some B) ∧ B.get 0 0 = 1 / 4 := by
  obtain ⟨Pa, ha, hia, hsa, hca, hva, hra, hla, hka, hcfa⟩ := (exRes_solve (P := ((Prob.new ⟨"GN", 5, none, none, none, 1⟩ :
    Prob ℕ (List ℝ)).addVariable 7 [0]).addResiduals [exRes] (.one l2Loss)) rfl rfl rfl (Or.inl rfl)).1 rfl rfl
  have hdet : (Matrix.det (!![4] : Mat 1 1)) ≠ 0 := by rw [Matrix.det_fin_one]; show (4 : ℝ) ≠ 0; norm_num
  have hq := C41_first_query Pa ⟨1, !![4]⟩ hia hdet (by rw [hca]; rfl) 7 7 ⟨0, 1⟩ ⟨0, 1⟩ (by rw [hsa]; rfl) (by rw [hsa]; rfl)
  obtain ⟨Pb, hb, hib, hsb, hcb⟩ := (exRes_solve (P := ({ Pa with cov := some ⟨1, (!![4] : Mat 1 1)⁻¹⟩ } :
    Prob ℕ (List ℝ)).addResiduals [exRes] (.one l2Loss)) (by show Pa.cfg = _; rw [hcfa]; rfl) (by show Pa.varsInit = _; rw [hva]; rfl)
    (by show Pa.constKeys = _; rw [hka]; rfl) (Or.inr hsa)).2 (by show Pa.residuals ++ _ = _; rw [hra]; rfl)
    (by show Pa.losses ++ _ = _; rw [hla]; rfl)
  refine ⟨Pb, SqMat.block ⟨1, (!![4] : Mat 1 1)⁻¹⟩ ⟨0, 1⟩ ⟨0, 1⟩, ?_, hib, ?_, ?_⟩
  · unfold Prob.runOps
    simp only [List.foldlM_cons, List.foldlM_nil, Prob.step, bind, Except.bind]
    rw [ha]
    simp only []
    rw [hq]
    show Except.bind _ _ = _
    rw [hb]
    rfl
  · unfold Prob.getCovarianceBlock
    rw [hcb]
    simp only [Prob.addResiduals, Option.isNone_some, Bool.false_eq_true, if_false, hsb, hcb]
    rfl
  · have hinv : (!![4] : Mat 1 1)⁻¹ = !![1 / 4] := by
      apply inv_eq_left_inv
      ext i j
      fin_cases i; fin_cases j
      simp [Matrix.mul_apply]
    rw [hinv]
    simp [SqMat.block, DMat.block]

end Verif
