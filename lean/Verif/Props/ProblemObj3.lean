import Verif.Props.ProblemObj2
import Verif.Props.Assembly
import Verif.Props.LinearProblem

/-!
Property theorems about `compute_error_jac_cost` as a method of the user (`navlie/batch/problem.py`; C108), on a `Problem`
object with any history.
-/

namespace Verif

open Matrix

set_option linter.unusedVariables false
set_option linter.unusedSectionVars false

variable {K S : Type} [DecidableEq K]

/-- What the two solvers leave behind. -/
theorem solve_final {o : VarOps S} {P Q : Prob K S} (hs : P.cfg.solver = "GN" ∨ P.cfg.solver = "LM")
    (h : P.solve o = .ok Q) : ∃ P1 v c i, P.started o = .ok P1 ∧ Q = { P1 with vars := v, costHistory := c, info := i } ∧
      ∃ Lf, P1.linearize v = .ok Lf ∧ c.getLast? = some Lf.cost := by
  rcases hs with hs | hs
  · obtain ⟨P1, h1, h⟩ := solve_GN hs h
    unfold solveGN at h
    obtain ⟨L, h2, h⟩ := bind_ok h
    obtain ⟨s, h3, h⟩ := bind_ok h
    obtain ⟨Lf, h4, h⟩ := bind_ok h
    rcases hi : s.info with _ | A
    · rw [hi] at h; cases h
    rw [hi] at h
    cases h
    exact ⟨P1, s.vars, _, _, h1, rfl, Lf, h4, by simp⟩
  · obtain ⟨P1, h1, h⟩ := solve_LM hs h
    obtain ⟨L, mx, s, -, -, -, -, Lf, h4, h⟩ := solveLM_ok h
    exact ⟨P1, s.vars, _, _, h1, h, Lf, h4, by simp⟩

theorem solve_rows {o : VarOps S} {P Q : Prob K S} (h : P.solve o = .ok Q) :
    Q.resSlices.length = Q.residuals.length ∧ Q.residuals = P.residuals ∧ Q.losses = P.losses := by
  have start : ∀ {P1 : Prob K S}, P.started o = .ok P1 →
      P1.resSlices.length = P1.residuals.length ∧ P1.residuals = P.residuals ∧ P1.losses = P.losses := by
    intro P1 h1
    unfold Prob.started Prob.computeSize at h1
    obtain ⟨⟨sl, m⟩, h2, h1⟩ := bind_ok h1
    cases h1
    obtain ⟨_, -, hl, -⟩ := rowSlices_spec h2
    exact ⟨hl, rfl, rfl⟩
  by_cases h1 : P.cfg.solver = "GN"
  · obtain ⟨P1, v, c, i, h2, rfl, -⟩ := solve_final (.inl h1) h
    exact start (P1 := P1) h2
  by_cases h2 : P.cfg.solver = "LM"
  · obtain ⟨P1, v, c, i, h2, rfl, -⟩ := solve_final (.inr h2) h
    exact start (P1 := P1) h2
  · unfold Prob.solve at h
    obtain ⟨P1, h3, h⟩ := bind_ok h
    have e : P1.cfg = P.cfg := (computeSize_fields h3).1
    rw [if_neg h1, if_neg h2] at h
    cases h
    exact start h3

/-! ### Before the first solve -/

/-- Calls that neither solve, nor evaluate, nor edit a dictionary. -/
def POp.isQuiet : POp K S → Bool
  | .solve | .errorJacCost _ | .editResult .. => false
  | _ => true

theorem covariance_quiet (o : VarOps S) (op : POp K S) (hq : op.isQuiet = true) (p : PObj K S) :
    (PObj.call o op p).1.sizes = p.sizes ∧ (PObj.call o op p).1.vars = p.vars ∧
      (PObj.call o op p).1.dicts = p.dicts ∧ (PObj.call o op p).2 ≠ .error .nan := by
  cases op with
  | addResidual r l => exact ⟨rfl, rfl, rfl, fun h => by cases h⟩
  | addResiduals rs la => exact ⟨rfl, rfl, rfl, fun h => by cases h⟩
  | addVariable k x => exact ⟨rfl, rfl, rfl, fun h => by cases h⟩
  | setConstant ks => exact ⟨rfl, rfl, rfl, fun h => by cases h⟩
  | solve => cases hq
  | errorJacCost vars => cases hq
  | editResult a k x => cases hq
  | covarianceBlock k1 k2 =>
    unfold PObj.call
    rw [out_fst, out_snd]
    obtain ⟨q, ⟨M, rfl⟩, h, -⟩ := objCovarianceBlock_eq k1 k2 p
    rw [h]
    refine ⟨rfl, rfl, rfl, ?_⟩
    show (Except.map _ (match p.varSlices.lookup k1, p.varSlices.lookup k2 with
      | some s1, some s2 => match M with
        | none => .error .typeError
        | some M => .ok (some (M.block s1 s2))
      | _, _ => .ok none) : Except Err POut) ≠ _
    rcases p.varSlices.lookup k1 with _ | s1
    · intro h; cases h
    rcases p.varSlices.lookup k2 with _ | s2
    · intro h; cases h
    rcases M with _ | M
    · intro h; cases h
    · intro h; cases h
  | computeCovariance =>
    unfold PObj.call
    rw [out_fst, out_snd]
    obtain ⟨M, h⟩ := objComputeCovariance_state p
    obtain ⟨N, h'⟩ := objComputeCovariance_ok p
    rw [h, h']
    exact ⟨rfl, rfl, rfl, fun h => by cases h⟩

theorem quiet_runs {o : VarOps S} {p q : PObj K S} {ops : List (POp K S)} (h : Runs o p ops q)
    (hq : ∀ op ∈ ops, op.isQuiet = true) : q.sizes = p.sizes ∧ q.vars = p.vars ∧ q.dicts = p.dicts := by
  induction h with
  | nil p => exact ⟨rfl, rfl, rfl⟩
  | @call p r op ops _ ih =>
    obtain ⟨h1, h2, h3, -⟩ := covariance_quiet o op (hq op (by simp)) p
    obtain ⟨i1, i2, i3⟩ := ih fun op' hm => hq op' (by simp [hm])
    exact ⟨i1.trans h1, i2.trans h2, i3.trans h3⟩
  | @nan p q r op ops hn _ _ _ => exact absurd hn (covariance_quiet o op (hq op (by simp)) p).2.2.2

/-- **C108 (false in part).** `compute_error_jac_cost(variables)` should evaluate the problem at the variables passed.
Before the first `solve` it raises `KeyError`, whatever is passed, and raises again when called again: it looks the
residual's keys up in the variables of the last solve, and there are none. -/
theorem C108_before_solve (o : VarOps S) (cfg : ProbCfg) {p : PObj K S} {ops : List (POp K S)}
    (h : Runs o (PObj.new cfg) ops p) (hq : ∀ op ∈ ops, op.isQuiet = true)
    (r : Residual K S) (rest : List (Residual K S)) (hr : p.residuals = r :: rest) (hk : r.keys ≠ []) (vs vs' : Option (List (K × S))) :
    (objErrorJacCost o vs p).2 = .error .keyError ∧
    (objErrorJacCost o vs' (objErrorJacCost o vs p).1).2 = .error .keyError := by
  have key : ∀ (q : PObj K S) (vs : Option (List (K × S))), q.sizes = none → q.dict q.vars = [] → q.residuals = r :: rest →
      ∃ q', objErrorJacCost o vs q = (q', .error .keyError) ∧ q'.sizes = none ∧ q'.dict q'.vars = [] ∧
        q'.residuals = r :: rest := by
    intro q vs h1 h2 h3
    have hrow : rowSlices (q.dict q.vars) q.residuals 0 = .error .keyError := by
      rw [h2, h3]
      rcases hks : r.keys with _ | ⟨k, ks⟩
      · exact absurd hks hk
      unfold rowSlices
      rw [hks]
      rfl
    obtain ⟨R, hc⟩ := objComputeSize_err (o := o) hrow
    refine ⟨{ q with
      varSlices := (colSlices o q.constKeys (q.dict q.vars) 0 q.varSlices).1
      resSlices := R }, ?_, ?_, ?_, ?_⟩
    · unfold objErrorJacCost
      rw [pm_get]
      simp only [h1, Option.isNone_none, if_true]
      rw [pm_bind_err hc, h1]
    · exact h1
    · exact h2
    · exact h3
  obtain ⟨h1, h2, h3⟩ := quiet_runs h hq
  have hd : p.dict p.vars = [] := by
    unfold PObj.dict
    rw [h2, h3]
    rfl
  obtain ⟨q', e, a1, a2, a3⟩ := key p vs h1 hd hr
  rw [e]
  refine ⟨rfl, ?_⟩
  obtain ⟨q'', e', -⟩ := key q' vs' a1 a2 a3
  rw [e']

/-! ### After a solve -/

/-- **C108.** After a solve the method changes nothing and evaluates the problem at the variables passed, or at the result:
the cost is the total loss at these variables, and error and Jacobian are what C35 says of them. -/
theorem C108_after_solve (o : VarOps S) (p p' : PObj K S) (res : SolveResult) (h : objSolve o p = (p', .ok res))
    (vs : Option (List (K × S))) :
    objErrorJacCost o vs p' = (p', p'.toProb.linearize (vs.getD (p'.dict res.vars))) ∧
    ∀ L, (objErrorJacCost o vs p').2 = .ok L →
      totalCost (vs.getD (p'.dict res.vars)) (p.residuals.zip p.losses) = .ok L.cost := by
  obtain ⟨Q, hQ, ⟨rfl, hready⟩, ⟨D, v, R, z, c, i, hp, -⟩, rfl⟩ := solve_ok_run h
  have hrun := objErrorJacCost_run (o := o) hready vs
  refine ⟨hrun, fun L hL => ?_⟩
  rw [hrun] at hL
  have hc := C38_cost _ _ _ hL
  have e1 : p'.residuals = p.residuals := by rw [hp]
  have e2 : p'.losses = p.losses := by rw [hp]
  rw [← e1, ← e2]
  exact hc

/-- **C108.** At the result itself it does not raise, and the cost is the last one of the history of `solve`. -/
theorem C108_last_cost (o : VarOps S) (p p' : PObj K S) (res : SolveResult) (h : objSolve o p = (p', .ok res))
    (hs : p.cfg.solver = "GN" ∨ p.cfg.solver = "LM") :
    ∃ L c, objErrorJacCost o none p' = (p', .ok L) ∧ res.cost = some c ∧ c.getLast? = some L.cost := by
  obtain ⟨p2, h1, -, hq⟩ := objSolve_run o p
  obtain ⟨Q, hQ, ⟨he, hready⟩, -, rfl⟩ := solve_ok_run h
  rw [h] at h1
  have e1 : p' = p2 := congrArg Prod.fst h1
  subst e1
  obtain ⟨c, hc⟩ := Option.isSome_iff_exists.1 ((hq Q hQ).2.1 hs)
  obtain ⟨P1, v, c', i, h2, hQ', Lf, hLf, hlast⟩ := solve_final (P := p.toProb) hs hQ
  have hrun := objErrorJacCost_run (o := o) hready none
  have hv : p'.dict p'.vars = v := by
    have := congrArg Prob.vars (he.trans hQ')
    exact this
  have hcc : c' = c := by
    have := congrArg Prob.costHistory (he.trans hQ')
    have : p'.costHistory.getD [] = c' := this
    rw [hc] at this
    exact this.symm
  have hlin : p'.toProb.linearize (p'.dict p'.vars) = .ok Lf := by
    rw [he, hQ', hv, ← hLf]
    exact linearize_same (P := { P1 with vars := v, costHistory := c', info := i }) (Q := P1) rfl rfl rfl rfl rfl rfl rfl v
  refine ⟨Lf, c, ?_, hc, hcc ▸ hlast⟩
  rw [hrun]
  show (p', p'.toProb.linearize (p'.dict p'.vars)) = _
  rw [hlin]

/-- **C108.** The dictionary that `solve` returned is the one the object uses: a value the user assigns in it is used by the
next call without argument. -/
theorem C108_edited (o : VarOps S) (p p' : PObj K S) (res : SolveResult) (h : objSolve o p = (p', .ok res)) (k : K) (x : S) :
    (objErrorJacCost o none (PObj.call o (.editResult res.vars k x) p').1).2 =
      (objErrorJacCost o (some (dictSet (p'.dict res.vars) k x)) p').2 := by
  obtain ⟨Q, hQ, ⟨he, hready⟩, ⟨D, v, R, z, c, i, hp, h2, h3, h4⟩, rfl⟩ := solve_ok_run h
  have hlt : p'.vars < p'.dicts.length := by rw [hp]; exact h3
  have hst : (PObj.call o (.editResult p'.vars k x) p').1 =
      { p' with dicts := p'.dicts.set p'.vars (dictSet (p'.dict p'.vars) k x) } := rfl
  rw [hst]
  have hready' : Ready ({ p' with dicts := p'.dicts.set p'.vars (dictSet (p'.dict p'.vars) k x) } : PObj K S) := hready
  rw [objErrorJacCost_run hready', objErrorJacCost_run hready]
  have hd : PObj.dict { p' with dicts := p'.dicts.set p'.vars (dictSet (p'.dict p'.vars) k x) } p'.vars =
      dictSet (p'.dict p'.vars) k x := by
    show (p'.dicts.set p'.vars (dictSet (p'.dict p'.vars) k x)).getD p'.vars [] = _
    rw [List.getD_eq_getElem?_getD, List.getElem?_set_self hlt]
    rfl
  show Prob.linearize _ (PObj.dict { p' with dicts := p'.dicts.set p'.vars (dictSet (p'.dict p'.vars) k x) } p'.vars) =
    p'.toProb.linearize (dictSet (p'.dict p'.vars) k x)
  rw [hd]
  exact linearize_same (P := PObj.toProb { p' with dicts := p'.dicts.set p'.vars (dictSet (p'.dict p'.vars) k x) })
    (Q := p'.toProb) rfl rfl rfl rfl rfl rfl rfl _

/-! ### After more residuals were added -/

theorem asm_short (p : PObj K S) (size : ℕ) (vars : List (K × S)) : ∀ (l : List (Residual K S × Loss)) (i : ℕ) (a : Asm),
    i ≤ p.resSlices.length → p.resSlices.length < i + l.length → ∀ b, p.asm size vars i l a ≠ .ok b
  | [], i, a, hi, hl, b => by simp at hl; omega
  | (r, ls) :: rest, i, a, hi, hl, b => by
    intro h
    unfold PObj.asm at h
    obtain ⟨xs, h1, h⟩ := bind_ok h
    obtain ⟨err, h2, h⟩ := bind_ok h
    obtain ⟨jacs, h3, h⟩ := bind_ok h
    obtain ⟨s, h4, h⟩ := bind_ok h
    obtain ⟨e', h5, h⟩ := bind_ok h
    obtain ⟨H', h6, h⟩ := bind_ok h
    have hlt : i < p.resSlices.length := by
      have := pyGet_iff.1 h4
      exact (List.getElem?_eq_some_iff.1 this).1
    exact asm_short p size vars rest (i + 1) _ hlt (by simp at hl; omega) b h

/-- **C108 (false in part).** After a residual is added to a solved problem the method raises, whatever is passed, until the
next solve: the rows were laid out by the last one. -/
theorem C108_after_add (o : VarOps S) (p p' : PObj K S) (res : SolveResult) (h : objSolve o p = (p', .ok res))
    (hl : p.residuals.length ≤ p.losses.length) (rs : List (Residual K S)) (hrs : rs ≠ []) (ls : Loss)
    (vs : Option (List (K × S))) :
    ∃ e, (objErrorJacCost o vs (PObj.call o (.addResiduals rs (.one ls)) p').1).2 = .error e := by
  obtain ⟨Q, hQ, ⟨rfl, hready⟩, ⟨D, v, R, z, c, i, hp, -⟩, rfl⟩ := solve_ok_run h
  obtain ⟨hz, sl, hsl⟩ := hready
  have hlen : p'.resSlices.length = p.residuals.length := by
    obtain ⟨e1, e2, -⟩ := solve_rows hQ
    have e1 : (p'.resSlices.filterMap id).length = p'.residuals.length := e1
    have e2 : p'.residuals = p.residuals := e2
    rw [hsl, filterMap_some] at e1
    rw [hsl, List.length_map, e1, e2]
  have e1 : p'.residuals = p.residuals := by rw [hp]
  have e2 : p'.losses = p.losses := by rw [hp]
  set q : PObj K S := (PObj.call o (.addResiduals rs (.one ls)) p').1 with hq
  have hqr : q.residuals = p.residuals ++ rs := by rw [← e1]; rfl
  have hql : q.losses = p.losses ++ rs.map fun _ => ls := by rw [← e2]; rfl
  have hqs : q.resSlices = p'.resSlices := rfl
  have hqz : q.sizes = p'.sizes := rfl
  have hn : q.sizes.isNone = false := by
    obtain ⟨z, hz⟩ := Option.isSome_iff_exists.1 hz
    rw [hqz, hz]; rfl
  unfold objErrorJacCost
  rw [pm_get]
  simp only [hn, Bool.false_eq_true, if_false]
  rw [pm_get]
  rcases except_cases (q.asm (q.sizes.getD (0, 0)).1 (vs.getD (q.dict q.vars)) 0 (q.residuals.zip q.losses)
      ⟨fun _ => 0, DMat.zeros (q.sizes.getD (0, 0)).1 (q.sizes.getD (0, 0)).2, 0⟩) with ⟨a, ha⟩ | ⟨e, ha⟩
  · refine absurd ha (asm_short q _ _ _ 0 _ (Nat.zero_le _) ?_ a)
    have : 0 < rs.length := List.length_pos_iff.2 hrs
    rw [hqs, hlen, hqr, hql]
    simp only [List.length_zip, List.length_append, List.length_map]
    omega
  · rw [pm_lift_err ha]
    exact ⟨e, rfl⟩

/-! ### The hypotheses can be met -/

/-- A residual in one variable: `x - 2`. -/
def lineRes : Residual Unit ℝ where
  keys := [()]
  error xs := .ok [xs.headD 0 - 2]
  jacobians _ flags := .ok [whenAsked (flags.headD false) (DMat.row 1 fun _ => 1)]

example : HonoursFlags lineRes := by
  intro xs flags js hjs i J hJ hfl
  cases hjs
  cases i with
  | zero =>
    have := whenAsked_some (Option.some.inj hJ)
    cases flags with
    | nil => cases this
    | cons f fs => simp at hfl this; rw [hfl] at this; cases this
  | succ i => simp at hJ

/-- A problem with one variable and one residual, before any solve. -/
example : ∃ p : PObj Unit ℝ, Runs realOps (PObj.new lmCfg) [.addVariable () 3, .addResidual lineRes l2Loss] p ∧
    p.residuals = [lineRes] ∧ lineRes.keys ≠ [] := ⟨_, .call (.call (.nil _)), rfl, by simp [lineRes]⟩

/-- A problem built by calls, on which `solve` succeeds; it has a first residual, and its losses are as many. -/
theorem solvable_history : ∃ (p p' : PObj ℕ (List ℝ)) (res : SolveResult),
    Runs vecVarOps (PObj.new exProb.cfg)
      [.addVariable 7 [0], .addResidual (linRes [7] [⟨1, 1, fun _ _ => 2⟩] 1 fun _ => -6) l2Loss] p ∧
    objSolve vecVarOps p = (p', .ok res) ∧ p.residuals.length ≤ p.losses.length ∧ p.cfg.solver = "GN" := by
  obtain ⟨P1, L, h1, h2, h3, h4⟩ := exProb_linearize
  obtain ⟨P', hP'⟩ := C40_returns exProb P1 exProb_linear rfl (by decide) h1 L h2 h3 h4
  obtain ⟨p', h, -, -⟩ := objSolve_run vecVarOps (PObj.call vecVarOps (.addResidual (linRes [7] [⟨1, 1, fun _ _ => 2⟩] 1
    fun _ => -6) l2Loss) (PObj.call vecVarOps (.addVariable 7 [0]) (PObj.new exProb.cfg)).1).1
  have hp : PObj.toProb (PObj.call vecVarOps (.addResidual (linRes [7] [⟨1, 1, fun _ _ => 2⟩] 1
    fun _ => -6) l2Loss) (PObj.call vecVarOps (.addVariable 7 [0]) (PObj.new exProb.cfg)).1).1 = exProb := rfl
  rw [hp, hP'] at h
  exact ⟨_, p', _, .call (.call (.nil _)), h, le_refl _, rfl⟩

/-- The residuals of linear problems leave out Jacobians that are not asked for. -/
theorem linRes_honours (ks : List K) (Js : List DMat) (n : ℕ) (b : ℕ → ℝ) : HonoursFlags (linRes ks Js n b) := by
  intro xs flags js hjs i J hJ hfl
  cases hjs
  rw [List.getElem?_zipWith, hfl] at hJ
  rcases hA : Js[i]? with _ | A
  · rw [hA] at hJ; cases hJ
  · rw [hA] at hJ
    have := Option.some.inj hJ
    simp at this

end Verif
