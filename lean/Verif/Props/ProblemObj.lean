import Verif.Lemmas.ProbHistory

/-!
Property theorems about histories of calls on one `Problem` object (`navlie/batch/problem.py`; C107, C108): calls that
raise half-way, repeated solves, results kept by the user and edited by the user.
-/

namespace Verif

open Matrix

set_option linter.unusedVariables false
set_option linter.unusedSectionVars false

variable {K S : Type} [DecidableEq K]

/-! ### Specification -/

/-- The calls that define the problem. -/
def POp.isBuilder : POp K S → Bool
  | .addResidual .. | .addResiduals .. | .addVariable .. | .setConstant .. => true
  | _ => false

/-- The effects of a call in which NaN appeared (`Err.nan`, which Python does not raise) continue beyond the point where
the model stops: the dictionaries made since, the reference to one of them, row slices, sizes, history and information
matrix may be anything. -/
def Clobbered (p p' p'' : PObj K S) : Prop :=
  ∃ D v R z c i, p'' = { p' with dicts := D, vars := v, resSlices := R, sizes := z, costHistory := c, info := i } ∧
    v < D.length ∧ p.dicts.length ≤ D.length ∧ ∀ b, b < p.dicts.length → D[b]? = p.dicts[b]?

/-- The object after a history of calls: an exception ends a call, not the history. -/
inductive Runs (o : VarOps S) : PObj K S → List (POp K S) → PObj K S → Prop where
  | nil (p : PObj K S) : Runs o p [] p
  | call {p r : PObj K S} {op : POp K S} {ops : List (POp K S)} :
      Runs o (PObj.call o op p).1 ops r → Runs o p (op :: ops) r
  | nan {p q r : PObj K S} {op : POp K S} {ops : List (POp K S)} : (PObj.call o op p).2 = .error .nan →
      Clobbered p (PObj.call o op p).1 q → Runs o q ops r → Runs o p (op :: ops) r

/-- What the caller of `solve` sees: the contents of the dictionary of variables, the information matrix and the summary,
or the exception. -/
noncomputable def solveOutcome (o : VarOps S) (p : PObj K S) :
    Except Err (List (K × S) × Option SqMat × ℕ × ℕ × Option (List ℝ)) :=
  (objSolve o p).2.map fun res =>
    ((objSolve o p).1.dict res.vars, res.info, res.sizeState, res.sizeErr, res.cost)

/-! ### The object does what the functions say -/

/-- **C107.** `solve` on the object, whatever happened to it before, gives what the function `Prob.solve`, about which C35 -
C41 and others are proved, gives; the same exception if it raises. -/
theorem C107_refines (o : VarOps S) (p : PObj K S) (hs : p.cfg.solver = "GN" ∨ p.cfg.solver = "LM") :
    solveOutcome o p = (p.toProb.solve o).map fun Q => (Q.vars, Q.info, Q.sizeState, Q.sizeErr, some Q.costHistory) := by
  obtain ⟨p', h1, -, h3⟩ := objSolve_run o p
  unfold solveOutcome
  rw [h1]
  rcases except_cases (p.toProb.solve o) with ⟨Q, hQ⟩ | ⟨e, hQ⟩
  swap
  · rw [hQ]; rfl
  obtain ⟨rfl, hc, -⟩ := h3 Q hQ
  obtain ⟨c, hc⟩ := Option.isSome_iff_exists.1 (hc hs)
  rw [hQ]
  show Except.ok (p'.dict p'.vars, p'.info, (p'.sizes.getD (0, 0)).2, (p'.sizes.getD (0, 0)).1, p'.costHistory) =
    Except.ok (p'.dict p'.vars, p'.info, (p'.sizes.getD (0, 0)).2, (p'.sizes.getD (0, 0)).1, some (p'.costHistory.getD []))
  rw [hc]
  rfl

/-! ### What a call leaves alone -/

/-- The definition of a problem. -/
structure Defn (K S : Type) where
  cfg : ProbCfg
  varsInit : List (K × S)
  constKeys : List K
  residuals : List (Residual K S)
  losses : List Loss

/-- The definition stored in an object. -/
def PObj.defn (p : PObj K S) : Defn K S := ⟨p.cfg, p.varsInit, p.constKeys, p.residuals, p.losses⟩

/-- What a call does to the definition. -/
def Defn.apply (d : Defn K S) : POp K S → Defn K S
  | .addResidual r l => { d with residuals := d.residuals ++ [r], losses := d.losses ++ [l] }
  | .addResiduals rs la =>
    { d with
      residuals := d.residuals ++ rs
      losses := d.losses ++ match la with
        | .one l => rs.map fun _ => l
        | .many ls => ls }
  | .addVariable k x => { d with varsInit := dictSet d.varsInit k x }
  | .setConstant ks =>
    { d with
      constKeys := (match ks with
        | .hashable k => [k]
        | .list l => l).foldl (fun acc k => if k ∈ acc then acc else acc ++ [k]) d.constKeys }
  | _ => d

theorem out_fst {α : Type} (m : PM K S α) (f : α → POut) (p : PObj K S) : ((m.out f) p).1 = (m p).1 := by
  unfold PM.out
  rcases h : m p with ⟨p', r⟩
  rcases except_cases r with ⟨a, rfl⟩ | ⟨e, rfl⟩
  · rw [pm_bind_ok h]; rfl
  · rw [pm_bind_err h]

theorem out_snd {α : Type} (m : PM K S α) (f : α → POut) (p : PObj K S) : ((m.out f) p).2 = (m p).2.map f := by
  unfold PM.out
  rcases h : m p with ⟨p', r⟩
  rcases except_cases r with ⟨a, rfl⟩ | ⟨e, rfl⟩
  · rw [pm_bind_ok h]; rfl
  · rw [pm_bind_err h]; rfl

theorem objComputeSize_state (o : VarOps S) (p : PObj K S) :
    ∃ d R z, (objComputeSize o p).1 = { p with varSlices := d, resSlices := R, sizes := z } := by
  rcases except_cases (rowSlices (p.dict p.vars) p.residuals 0) with ⟨⟨sl, m⟩, h⟩ | ⟨e, h⟩
  · rw [objComputeSize_ok h]; exact ⟨_, _, _, rfl⟩
  · obtain ⟨R, hR⟩ := objComputeSize_err (o := o) h
    rw [hR]; exact ⟨_, R, p.sizes, rfl⟩

theorem objErrorJacCost_state (o : VarOps S) (vs : Option (List (K × S))) (p : PObj K S) :
    ∃ d R z, (objErrorJacCost o vs p).1 = { p with varSlices := d, resSlices := R, sizes := z } := by
  have tail : ∀ (w : List (K × S)) (q : PObj K S), ((PM.get >>= fun p : PObj K S =>
      (PM.lift (p.asm (p.sizes.getD (0, 0)).1 w 0 (p.residuals.zip p.losses)
        ⟨fun _ => 0, DMat.zeros (p.sizes.getD (0, 0)).1 (p.sizes.getD (0, 0)).2, 0⟩) >>= fun a =>
      (pure ⟨(p.sizes.getD (0, 0)).1, (p.sizes.getD (0, 0)).2, fun i => a.e i, fun i j => a.H.get i j, a.cost⟩ :
        PM K S Lin))) q).1 = q := by
    intro w q
    rw [pm_get]
    rcases except_cases (q.asm (q.sizes.getD (0, 0)).1 w 0 (q.residuals.zip q.losses)
        ⟨fun _ => 0, DMat.zeros (q.sizes.getD (0, 0)).1 (q.sizes.getD (0, 0)).2, 0⟩) with ⟨a, ha⟩ | ⟨e, ha⟩
    · rw [pm_lift_ok ha]; rfl
    · rw [pm_lift_err ha]
  unfold objErrorJacCost
  rw [pm_get]
  by_cases hn : p.sizes.isNone = true
  · simp only [if_pos hn]
    obtain ⟨d, R, z, hz⟩ := objComputeSize_state o p
    rcases hc : objComputeSize o p with ⟨q, r⟩
    rw [hc] at hz
    rcases except_cases r with ⟨a, rfl⟩ | ⟨e, rfl⟩
    · rw [pm_bind_ok hc]
      exact ⟨d, R, z, by rw [tail]; exact hz⟩
    · rw [pm_bind_err hc]
      exact ⟨d, R, z, hz⟩
  · simp only [if_neg hn]
    exact ⟨p.varSlices, p.resSlices, p.sizes, by rw [tail]⟩

theorem objComputeCovariance_state (p : PObj K S) : ∃ M, (objComputeCovariance p).1 = { p with cov := M } := by
  unfold objComputeCovariance
  split
  · exact ⟨p.cov, rfl⟩
  · split
    · exact ⟨p.cov, rfl⟩
    · exact ⟨_, rfl⟩

theorem objComputeCovariance_ok (p : PObj K S) : ∃ M, (objComputeCovariance p).2 = .ok M := by
  unfold objComputeCovariance
  split
  · exact ⟨_, rfl⟩
  · split
    · exact ⟨_, rfl⟩
    · exact ⟨_, rfl⟩

theorem objCovarianceBlock_eq (k1 k2 : K) (p : PObj K S) : ∃ q : PObj K S, (∃ M, q = { p with cov := M }) ∧
    objCovarianceBlock k1 k2 p = (q, match p.varSlices.lookup k1, p.varSlices.lookup k2 with
      | some s1, some s2 => match q.cov with
        | none => .error .typeError
        | some M => .ok (some (M.block s1 s2))
      | _, _ => .ok none) ∧ q = if p.cov.isNone then (objComputeCovariance p).1 else p := by
  have tail : ∀ q : PObj K S, ((PM.get >>= fun p : PObj K S =>
      (match p.varSlices.lookup k1, p.varSlices.lookup k2 with
      | some s1, some s2 =>
        match p.cov with
        | none => PM.lift (.error .typeError)
        | some M => (pure (some (M.block s1 s2)) : PM K S (Option DMat))
      | _, _ => pure none)) q) = (q, match q.varSlices.lookup k1, q.varSlices.lookup k2 with
      | some s1, some s2 => match q.cov with
        | none => .error .typeError
        | some M => .ok (some (M.block s1 s2))
      | _, _ => .ok none) := by
    intro q
    rw [pm_get]
    rcases q.varSlices.lookup k1 with _ | s1
    · rfl
    rcases q.varSlices.lookup k2 with _ | s2
    · rfl
    rcases q.cov with _ | M
    · rfl
    · rfl
  unfold objCovarianceBlock
  rw [pm_get]
  by_cases hn : p.cov.isNone = true
  · simp only [if_pos hn]
    obtain ⟨M, hM⟩ := objComputeCovariance_state p
    obtain ⟨N, hN⟩ := objComputeCovariance_ok p
    have hpair : objComputeCovariance p = ((objComputeCovariance p).1, .ok N) := by rw [← hN]
    refine ⟨(objComputeCovariance p).1, ⟨M, hM⟩, ?_, rfl⟩
    have hsl : (objComputeCovariance p).1.varSlices = p.varSlices := by rw [hM]
    rw [pm_bind_ok hpair]
    rw [← hsl]
    exact tail _
  · simp only [if_neg hn]
    exact ⟨p, ⟨p.cov, rfl⟩, tail p, by simp⟩

theorem solve_ok_run {o : VarOps S} {p p' : PObj K S} {res : SolveResult} (h : objSolve o p = (p', .ok res)) :
    ∃ Q, p.toProb.solve o = .ok Q ∧ (p'.toProb = Q ∧ Ready p') ∧ Solved o p p' ∧
      res = ⟨p'.vars, p'.info, (p'.sizes.getD (0, 0)).2, (p'.sizes.getD (0, 0)).1, p'.costHistory⟩ := by
  obtain ⟨p2, h1, hs, hq⟩ := objSolve_run o p
  rw [h] at h1
  have e1 : p' = p2 := congrArg Prod.fst h1
  subst e1
  have e2 : Except.ok res = (p.toProb.solve o).map fun Q =>
    (⟨p'.vars, p'.info, (p'.sizes.getD (0, 0)).2, (p'.sizes.getD (0, 0)).1, p'.costHistory⟩ : SolveResult) :=
    congrArg Prod.snd h1
  rcases except_cases (p.toProb.solve o) with ⟨Q, hQ⟩ | ⟨e, hQ⟩
  · rw [hQ] at e2
    exact ⟨Q, hQ, ⟨(hq Q hQ).1, (hq Q hQ).2.2⟩, hs, Except.ok.inj e2⟩
  · rw [hQ] at e2; cases e2

/-- What every call preserves: the definition changes only as the builder calls say, the dictionaries that exist are only
written by the user, and `self.variables` exists. -/
theorem call_frame (o : VarOps S) (op : POp K S) (p : PObj K S) :
    (PObj.call o op p).1.defn = p.defn.apply op ∧
    p.dicts.length ≤ (PObj.call o op p).1.dicts.length ∧
    (p.vars < p.dicts.length → (PObj.call o op p).1.vars < (PObj.call o op p).1.dicts.length) ∧
    ∀ a, a < p.dicts.length → (∀ k x, op ≠ .editResult a k x) → (PObj.call o op p).1.dict a = p.dict a := by
  cases op with
  | addResidual r l => exact ⟨rfl, le_refl _, fun h => h, fun a _ _ => rfl⟩
  | addResiduals rs la => exact ⟨rfl, le_refl _, fun h => h, fun a _ _ => rfl⟩
  | addVariable k x => exact ⟨rfl, le_refl _, fun h => h, fun a _ _ => rfl⟩
  | setConstant ks => exact ⟨rfl, le_refl _, fun h => h, fun a _ _ => rfl⟩
  | solve =>
    unfold PObj.call
    rw [out_fst]
    obtain ⟨p', h1, ⟨D, v, R, z, c, i, rfl, h2, h3, h4⟩, -⟩ := objSolve_run o p
    rw [h1]
    refine ⟨rfl, le_trans h2 h3.le, fun _ => h3, fun a ha _ => ?_⟩
    show D.getD a [] = p.dicts.getD a []
    rw [List.getD_eq_getElem?_getD, List.getD_eq_getElem?_getD, h4 a ha]
  | errorJacCost vars =>
    unfold PObj.call
    rw [out_fst]
    obtain ⟨d, R, z, h⟩ := objErrorJacCost_state o vars p
    rw [h]
    exact ⟨rfl, le_refl _, fun h => h, fun a _ _ => rfl⟩
  | covarianceBlock k1 k2 =>
    unfold PObj.call
    rw [out_fst]
    obtain ⟨q, ⟨M, rfl⟩, h, -⟩ := objCovarianceBlock_eq k1 k2 p
    rw [h]
    exact ⟨rfl, le_refl _, fun h => h, fun a _ _ => rfl⟩
  | computeCovariance =>
    unfold PObj.call
    rw [out_fst]
    obtain ⟨M, h⟩ := objComputeCovariance_state p
    rw [h]
    exact ⟨rfl, le_refl _, fun h => h, fun a _ _ => rfl⟩
  | editResult a k x =>
    refine ⟨rfl, ?_, fun h => ?_, fun b _ hb => ?_⟩
    · show _ ≤ (p.dicts.set a _).length
      simp
    · show p.vars < (p.dicts.set a _).length
      simpa using h
    · have hab : a ≠ b := fun e => hb k x (by rw [e])
      show (p.dicts.set a _).getD b [] = p.dicts.getD b []
      simp [hab]

/-- **C107.** The definition of the problem is what the builder calls of the history made it: solving, querying, editing
results and calls that raise do not change it. -/
theorem C107_definition (o : VarOps S) {p q : PObj K S} {ops : List (POp K S)} (h : Runs o p ops q) :
    q.defn = (ops.filter POp.isBuilder).foldl Defn.apply p.defn := by
  have key : ∀ (op : POp K S) (d : Defn K S) (ops : List (POp K S)),
      ((op :: ops).filter POp.isBuilder).foldl Defn.apply d = (ops.filter POp.isBuilder).foldl Defn.apply (d.apply op) := by
    intro op d ops
    cases op <;> rfl
  induction h with
  | nil p => rfl
  | @call p r op ops _ ih => rw [ih, key, (call_frame o op p).1]
  | @nan p q r op ops _ hc _ ih =>
    obtain ⟨D, v, R, z, c, i, rfl, -, -, -⟩ := hc
    rw [ih, key, ← (call_frame o op p).1]
    rfl

/-- **C107.** Solving depends on the builder calls only. Two objects on which the same builder calls were made in the same
order, with any other calls in between - earlier solves, queries, evaluations, edits of returned dictionaries, calls that
raised at any point - give the same result, or the same exception. -/
theorem C107_history (o : VarOps S) (cfg : ProbCfg) (hs : cfg.solver = "GN" ∨ cfg.solver = "LM")
    {p q : PObj K S} {ops ops' : List (POp K S)} (h : Runs o (PObj.new cfg) ops p) (h' : Runs o (PObj.new cfg) ops' q)
    (hb : ops.filter POp.isBuilder = ops'.filter POp.isBuilder) (hon : ∀ r ∈ q.residuals, HonoursFlags r) :
    solveOutcome o p = solveOutcome o q := by
  have hd : p.defn = q.defn := by rw [C107_definition o h, C107_definition o h', hb]
  have hcfg : q.cfg = cfg := by
    have e := congrArg Defn.cfg (C107_definition o h')
    have : ∀ (l : List (POp K S)) (d : Defn K S), (l.foldl Defn.apply d).cfg = d.cfg := by
      intro l
      induction l with
      | nil => intro d; rfl
      | cons op l ih => intro d; rw [List.foldl_cons, ih]; cases op <;> rfl
    rw [this] at e
    exact e
  have hsame : SameDefn p.toProb q.toProb := by
    have e1 := congrArg Defn.cfg hd
    have e2 := congrArg Defn.varsInit hd
    have e3 := congrArg Defn.constKeys hd
    have e4 := congrArg Defn.residuals hd
    have e5 := congrArg Defn.losses hd
    exact ⟨e1, e2, e3, e4, e5⟩
  have hq : q.cfg.solver = "GN" ∨ q.cfg.solver = "LM" := by rw [hcfg]; exact hs
  have hp : p.cfg.solver = "GN" ∨ p.cfg.solver = "LM" := by
    rw [show p.cfg = q.cfg from hsame.cfg]; exact hq
  rw [C107_refines o p hp, C107_refines o q hq]
  have hr := solve_report hsame o hq hon
  have hmap : ∀ r : Except Err (Prob K S),
      (r.map fun Q => (Q.vars, Q.info, Q.sizeState, Q.sizeErr, some Q.costHistory)) =
        (r.map Prob.report).map fun t => (t.1, t.2.1, t.2.2.1, t.2.2.2.1, some t.2.2.2.2) := by
    intro r
    cases r <;> rfl
  rw [hmap, hr, ← hmap]

/-- **C107.** In particular every solve gives what solving right after the builder calls alone would have given. -/
theorem C107_fresh (o : VarOps S) (cfg : ProbCfg) (hs : cfg.solver = "GN" ∨ cfg.solver = "LM")
    {p q : PObj K S} {ops : List (POp K S)} (h : Runs o (PObj.new cfg) ops p)
    (h' : Runs o (PObj.new cfg) (ops.filter POp.isBuilder) q) (hon : ∀ r ∈ q.residuals, HonoursFlags r) :
    solveOutcome o p = solveOutcome o q :=
  C107_history o cfg hs h h' (by rw [List.filter_filter]; simp) hon

/-- **C107.** Solving again gives the same, also after a solve that raised. -/
theorem C107_twice (o : VarOps S) (p : PObj K S) (hs : p.cfg.solver = "GN" ∨ p.cfg.solver = "LM")
    (hon : ∀ r ∈ p.residuals, HonoursFlags r) : solveOutcome o (objSolve o p).1 = solveOutcome o p := by
  obtain ⟨p', h1, ⟨D, v, R, z, c, i, rfl, -, -, -⟩, -⟩ := objSolve_run o p
  rw [h1]
  have hr := solve_report (P := PObj.toProb { p with
      dicts := D
      vars := v
      varSlices := (colSlices o p.constKeys p.varsInit 0 p.varSlices).1
      resSlices := R
      sizes := z
      costHistory := c
      info := i }) (Q := p.toProb) ⟨rfl, rfl, rfl, rfl, rfl⟩ o hs hon
  rw [C107_refines o _ (by exact hs), C107_refines o p hs]
  have hmap : ∀ r : Except Err (Prob K S),
      (r.map fun Q => (Q.vars, Q.info, Q.sizeState, Q.sizeErr, some Q.costHistory)) =
        (r.map Prob.report).map fun t => (t.1, t.2.1, t.2.2.1, t.2.2.2.1, some t.2.2.2.2) := by
    intro r
    cases r <;> rfl
  rw [hmap, hr, ← hmap]

/-- **C107.** A result stays what it was: whatever is called afterwards, and whether it raises or not, the dictionary of
variables that a solve returned changes only by the user's own assignments to it. -/
theorem C107_results_kept (o : VarOps S) (p p' q : PObj K S) (res : SolveResult) (h : objSolve o p = (p', .ok res))
    {ops : List (POp K S)} (hr : Runs o p' ops q) (hno : ∀ k x, POp.editResult res.vars k x ∉ ops) :
    q.dict res.vars = p'.dict res.vars := by
  have hlt : res.vars < p'.dicts.length := by
    obtain ⟨Q, -, -, ⟨D, v, R, z, c, i, rfl, h2, h3, h4⟩, rfl⟩ := solve_ok_run h
    exact h3
  generalize res.vars = a at hno hlt ⊢
  clear h
  induction hr with
  | nil p => rfl
  | @call p r op ops _ ih =>
    obtain ⟨-, h2, -, h4⟩ := call_frame o op p
    rw [ih (fun k x hm => hno k x (by simp [hm])) (by omega),
      h4 a hlt fun k x e => hno k x (by simp [e])]
  | @nan p q r op ops _ hc _ ih =>
    obtain ⟨D, v, R, z, c, i, rfl, h1, h2, h3⟩ := hc
    rw [ih (fun k x hm => hno k x (by simp [hm])) (by show a < D.length; omega)]
    show D.getD a [] = p.dicts.getD a []
    rw [List.getD_eq_getElem?_getD, List.getD_eq_getElem?_getD, h3 a hlt]

/-- **C107.** Two solves never return the same dictionary. -/
theorem C107_results_distinct (o : VarOps S) (p p' q q' : PObj K S) (res res' : SolveResult)
    (h : objSolve o p = (p', .ok res)) {ops : List (POp K S)} (hr : Runs o p' ops q) (h' : objSolve o q = (q', .ok res')) :
    res.vars < res'.vars := by
  have addr : ∀ (p p' : PObj K S) (res : SolveResult), objSolve o p = (p', .ok res) →
      p.dicts.length ≤ res.vars ∧ res.vars < p'.dicts.length := by
    intro p p' res h
    obtain ⟨Q, -, -, ⟨D, v, R, z, c, i, rfl, h2, h3, h4⟩, rfl⟩ := solve_ok_run h
    exact ⟨h2, h3⟩
  have hlen : ∀ {p q : PObj K S} {ops : List (POp K S)}, Runs o p ops q → p.dicts.length ≤ q.dicts.length := by
    intro p q ops hr
    induction hr with
    | nil p => exact le_refl _
    | @call p r op ops _ ih => exact le_trans (call_frame o op p).2.1 ih
    | @nan p q r op ops _ hc _ ih =>
      obtain ⟨D, v, R, z, c, i, rfl, h1, h2, h3⟩ := hc
      exact le_trans h2 ih
  have := addr p p' res h
  have := addr q q' res' h'
  have := hlen hr
  omega

end Verif
