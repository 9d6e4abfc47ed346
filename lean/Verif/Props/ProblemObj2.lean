import Verif.Props.ProblemObj
import Verif.Props.MixtureGrad
import Verif.Model.BatchEst

/-!
Continuation of `Verif.Props.ProblemObj` (C107, C108): the residuals of the library leave out Jacobians that are not asked
for; what goes wrong for constant variables; `compute_error_jac_cost` as a method of the user.
-/

namespace Verif

open Matrix

set_option linter.unusedVariables false
set_option linter.unusedSectionVars false

variable {K S : Type} [DecidableEq K]

/-! ### The residuals of the library -/

theorem toResidual_honours {m n : ℕ} (keys : List ℕ) (eval : List S → Option (List Bool) → Except Err (ResOut m n))
    (h : ∀ xs flags out, eval xs (some flags) = .ok out → ∀ l, out.jacobians = some l → ∀ (i : ℕ) (J : Mat m n),
      l[i]? = some (some J) → flags[i]? ≠ some false) : HonoursFlags (toResidual keys eval) := by
  intro xs flags js hjs i J hJ
  simp only [toResidual] at hjs
  rcases except_cases (eval xs (some flags)) with ⟨out, ho⟩ | ⟨e, ho⟩
  swap
  · rw [ho] at hjs; cases hjs
  rw [ho] at hjs
  cases hjs
  replace hJ : (List.map (Option.map DMat.ofMat) (out.jacobians.getD []))[i]? = some (some J) := hJ
  rcases hl : out.jacobians with _ | l
  · rw [hl] at hJ; simp at hJ
  rw [hl] at hJ
  simp only [Option.getD_some, List.getElem?_map] at hJ
  rcases hli : l[i]? with _ | (_ | A)
  · rw [hli] at hJ; simp at hJ
  · rw [hli] at hJ; simp at hJ
  · exact h xs flags out ho l hl i A hli

theorem whenAsked_some {α : Type} {f : Bool} {J A : α} (h : whenAsked f J = some A) : f = true := by
  unfold whenAsked at h
  split at h
  · assumption
  · cases h

/-- **C107.** The three residuals of `residuals.py` leave out the Jacobians of constant variables. -/
theorem C107_library_flags {V U : Type} {n : ℕ} (o : StateOps V n) (f : ProcModel V U n) (b : BFactor V U n)
    (r : Residual ℕ (St V)) (h : b.residual o f = .ok r) : HonoursFlags r := by
  cases b with
  | prior k x0 P0 =>
    simp only [BFactor.residual] at h
    rcases except_cases (PriorRes.new x0 P0) with ⟨q, hq⟩ | ⟨e, hq⟩
    swap
    · rw [hq] at h; cases h
    rw [hq] at h
    cases h
    refine toResidual_honours _ _ fun xs flags out ho l hl i J hJ => ?_
    unfold PriorRes.evaluate at ho
    obtain ⟨x, h1, ho⟩ := bind_ok ho
    split at ho
    · obtain ⟨f0, h2, ho⟩ := bind_ok ho
      cases ho
      cases hl
      cases i with
      | zero =>
        have := whenAsked_some (Option.some.inj hJ)
        subst this
        rw [(pyGet_iff.1 h2 : flags[0]? = some true)]
        simp
      | succ i => simp at hJ
    · cases ho; cases hl
  | process k1 k2 u =>
    cases h
    refine toResidual_honours _ _ fun xs flags out ho l hl i J hJ => ?_
    unfold processResidual at ho
    obtain ⟨x0, h1, ho⟩ := bind_ok ho
    obtain ⟨x1, h2, ho⟩ := bind_ok ho
    obtain ⟨dt, h3, ho⟩ := bind_ok ho
    obtain ⟨L, h4, ho⟩ := bind_ok ho
    split at ho
    · obtain ⟨f0, h5, ho⟩ := bind_ok ho
      obtain ⟨f1, h6, ho⟩ := bind_ok ho
      cases ho
      cases hl
      match i, hJ with
      | 0, hJ =>
        have := whenAsked_some (Option.some.inj hJ)
        subst this
        rw [(pyGet_iff.1 h5 : flags[0]? = some true)]
        simp
      | 1, hJ =>
        have := whenAsked_some (Option.some.inj hJ)
        subst this
        rw [(pyGet_iff.1 h6 : flags[1]? = some true)]
        simp
      | i + 2, hJ =>
        simp only [List.getElem?_cons_succ, List.getElem?_replicate] at hJ
        split at hJ <;> simp at hJ
    · cases ho; cases hl
  | meas k y =>
    cases h
    refine toResidual_honours _ _ fun xs flags out ho l hl i J hJ => ?_
    unfold measurementResidual at ho
    obtain ⟨x, h1, ho⟩ := bind_ok ho
    split at ho
    · cases ho
    obtain ⟨L, h2, ho⟩ := bind_ok ho
    split at ho
    · obtain ⟨f0, h3, ho⟩ := bind_ok ho
      cases ho
      cases hl
      cases i with
      | zero =>
        have := whenAsked_some (Option.some.inj hJ)
        subst this
        rw [(pyGet_iff.1 h3 : flags[0]? = some true)]
        simp
      | succ i =>
        simp only [List.getElem?_cons_succ, List.getElem?_replicate] at hJ
        split at hJ <;> simp at hJ
    · cases ho; cases hl

theorem zeroJacs_false (dof : S → ℕ) (m : ℕ) : ∀ (fs : List Bool) (xs : List S) (i : ℕ), fs[i]? = some false →
    ∀ J, (zeroJacs dof m fs xs)[i]? ≠ some (some J)
  | [], xs, i, h, J => by simp at h
  | b :: bs, [], i, h, J => by simp [zeroJacs]
  | b :: bs, x :: xs, 0, h, J => by
    simp only [List.getElem?_cons_zero, Option.some.injEq] at h
    subst h
    simp [zeroJacs]
  | b :: bs, x :: xs, i + 1, h, J => by
    simp only [zeroJacs, List.getElem?_cons_succ] at h ⊢
    exact zeroJacs_false dof m bs xs i h J

theorem putJacs_false (keys : List K) {i : ℕ} : ∀ (ks : List K) (js l : List (Option DMat)),
    (∀ J, l[i]? ≠ some (some J)) → (∀ (t : ℕ) (k : K) (J : DMat), ks[t]? = some k → keys.idxOf k = i → js[t]? ≠ some (some J)) →
    ∀ J, (putJacs keys ks js l)[i]? ≠ some (some J)
  | [], js, l, hl, _, J => by cases js <;> exact hl J
  | _ :: _, [], l, hl, _, J => hl J
  | k :: ks, A :: js, l, hl, h, J => by
    unfold putJacs
    refine putJacs_false keys ks js _ (fun J' => ?_) (fun t q J' ht hq => h (t + 1) q J' ht hq) J
    by_cases e : keys.idxOf k = i
    · rw [List.getElem?_set]
      split
      · split
        · have := h 0 k J' rfl e
          simpa using this
        · simp
      · exact absurd e ‹_›
    · rw [List.getElem?_set_ne e]
      exact hl J'

theorem pickAll_get {α : Type} {keys : List K} {xs : List α} : ∀ {ks : List K} {ys : List α}, pickAll keys xs ks = .ok ys →
    ∀ (t : ℕ) (k : K), ks[t]? = some k → ys[t]? = xs[keys.idxOf k]?
  | [], ys, h, t, k, hk => by simp at hk
  | q :: ks, ys, h, t, k, hk => by
    unfold pickAll at h
    obtain ⟨x, h1, h⟩ := bind_ok h
    obtain ⟨r, h2, h⟩ := bind_ok h
    cases h
    cases t with
    | zero =>
      simp only [List.getElem?_cons_zero, Option.some.injEq] at hk
      subst hk
      rw [pyGet_iff.1 h1]; rfl
    | succ t => simpa using pickAll_get h2 t k (by simpa using hk)

theorem compJacs_false {dof : S → ℕ} {keys : List K} {xs : List S} {flags : List Bool} {i : ℕ}
    (hi : flags[i]? = some false) : ∀ {cs : List (MixComp K S)} {jss : List (List (Option DMat))},
    (∀ c ∈ cs, HonoursFlags c.res) → compJacs dof keys xs flags cs = .ok jss →
    ∀ js ∈ jss, ∀ J, js[i]? ≠ some (some J)
  | [], jss, _, h => by unfold compJacs at h; cases h; simp
  | c :: cs, jss, hc, h => by
    unfold compJacs at h
    obtain ⟨ys, h1, h⟩ := bind_ok h
    obtain ⟨fs, h2, h⟩ := bind_ok h
    obtain ⟨e, h3, h⟩ := bind_ok h
    obtain ⟨jl, h4, h⟩ := bind_ok h
    obtain ⟨r, h5, h⟩ := bind_ok h
    cases h
    intro js hjs J
    rcases List.mem_cons.1 hjs with rfl | hjs
    · refine putJacs_false keys _ _ _ (zeroJacs_false dof _ flags xs i hi) (fun t k J ht hk hJ => ?_) J
      refine hc c (by simp) ys fs jl h4 t J hJ ?_
      rw [pickAll_get h2 t k ht, hk, hi]
    · exact compJacs_false hi (fun c' hc' => hc c' (by simp [hc'])) h5 js hjs J

theorem mapM_mem {α β : Type} {f : α → Except Err β} {l : List α} {ys : List β} (h : l.mapM f = .ok ys) {y : β}
    (hy : y ∈ ys) : ∃ x ∈ l, f x = .ok y := by
  obtain ⟨i, hi⟩ := List.mem_iff_getElem?.1 hy
  obtain ⟨x, hx, hf⟩ := (mapM_get h).2 i y hi
  exact ⟨x, List.mem_of_getElem? hx, hf⟩

/-- **C107.** Mixtures of residuals that leave out Jacobians not asked for do so as well. -/
theorem C107_mixture_flags (M : MixRes K S) (dof : S → ℕ) (kind : MixKind) (hc : ∀ c ∈ M.comps, HonoursFlags c.res) :
    HonoursFlags (M.toResidual dof kind) := by
  intro xs flags js hjs i J hJ hfl
  have h : M.jacobians dof kind xs flags = .ok js := hjs
  unfold MixRes.jacobians at h
  obtain ⟨vals, h1, h⟩ := bind_ok h
  obtain ⟨jss, h2, h⟩ := bind_ok h
  obtain ⟨e, h3, h⟩ := bind_ok h
  obtain ⟨t, ht, hm⟩ := (mapM_get h).2 i _ hJ
  have hti : t = i := by
    have := List.getElem?_eq_some_iff.1 ht
    obtain ⟨hlt, he⟩ := this
    simpa using he.symm
  subst hti
  unfold mixJacobian at hm
  obtain ⟨Js, h4, hm⟩ := bind_ok hm
  have hnone : ∀ (k : ℕ) (A : DMat), Js[k]? ≠ some (some A) := by
    intro k A hA
    obtain ⟨jl, hjl, hg⟩ := mapM_mem h4 (List.mem_of_getElem? hA)
    exact compJacs_false hfl hc h2 jl hjl A (pyGet_iff.1 hg)
  cases kind with
  | max =>
    obtain ⟨k, -, hm⟩ := bind_ok hm
    obtain ⟨A, h5, hm⟩ := bind_ok hm
    rcases A with _ | A
    · cases hm
    · exact hnone k A (pyGet_iff.1 h5)
  | maxSum d =>
    obtain ⟨k, -, hm⟩ := bind_ok hm
    obtain ⟨ek, -, hm⟩ := bind_ok hm
    unfold jacMaxSum at hm
    obtain ⟨A, h5, hm⟩ := bind_ok hm
    rcases A with _ | A
    · cases hm
    · exact hnone 0 A (pyGet_iff.1 h5)
  | sum =>
    obtain ⟨k, -, hm⟩ := bind_ok hm
    obtain ⟨ek, -, hm⟩ := bind_ok hm
    unfold jacSum at hm
    obtain ⟨A, h5, hm⟩ := bind_ok hm
    rcases A with _ | A
    · cases hm
    · exact hnone 0 A (pyGet_iff.1 h5)
  | hsm =>
    obtain ⟨k, -, hm⟩ := bind_ok hm
    obtain ⟨ek, -, hm⟩ := bind_ok hm
    unfold jacHsm at hm
    obtain ⟨A, h5, hm⟩ := bind_ok hm
    rcases A with _ | A
    · cases hm
    · exact hnone 0 A (pyGet_iff.1 h5)

/-! ### Where the history shows -/

theorem colSlices_const {o : VarOps S} {const : List K} {k : K} (hk : k ∈ const) : ∀ (l : List (K × S)) (idx : ℕ)
    (d : List (K × Slice)), (colSlices o const l idx d).1.lookup k = d.lookup k
  | [], idx, d => rfl
  | (q, x) :: l, idx, d => by
    unfold colSlices
    split
    · exact colSlices_const hk l _ _
    · rename_i hq
      rw [colSlices_const hk l _ _, dictSet_get, if_neg (fun e : k = q => hq (e ▸ hk))]

theorem solve_state (o : VarOps S) (p : PObj K S) : Solved o p (objSolve o p).1 := by
  obtain ⟨p', h1, h2, -⟩ := objSolve_run o p
  rw [h1]
  exact h2

/-- **C107 (false in part).** `get_covariance_block` should give `None` for a variable that is held constant. Slices are
never removed: if the first variable was free in an earlier solve and is then held constant, a query for it is answered
with the block of whatever took its place - here of the second variable, if it has as many degrees of freedom. -/
theorem C107_stale_block (o : VarOps S) (p : PObj K S) (k k2 : K) (x x2 : S) (rest : List (K × S))
    (hv : p.varsInit = (k, x) :: (k2, x2) :: rest) (hn : (p.varsInit.map Prod.fst).Nodup) (hk : k ∉ p.constKeys)
    (hk2 : k2 ∉ p.constKeys) (hdof : o.dof x = o.dof x2) (j : K) :
    let p1 := (objSolve o p).1
    let p2 := (PObj.call o (.setConstant (.hashable k)) p1).1
    let p3 := (objSolve o p2).1
    (k ∈ p3.constKeys) ∧ objCovarianceBlock k j p3 = objCovarianceBlock k2 j p3 ∧
      objCovarianceBlock j k p3 = objCovarianceBlock j k2 p3 := by
  intro p1 p2 p3
  obtain ⟨D, v, R, z, c, i, h1, -, -, -⟩ := solve_state o p
  have h1 : p1 = _ := h1
  have hne : k ≠ k2 := by
    rw [hv] at hn
    intro e
    exact (List.nodup_cons.1 hn).1 (by simp [e])
  have hk1 : k ∉ rest.map Prod.fst := by
    rw [hv] at hn
    exact fun e => (List.nodup_cons.1 hn).1 (by simp only [List.map_cons, List.mem_cons]; exact .inr e)
  have hk2' : k2 ∉ rest.map Prod.fst := by
    rw [hv] at hn
    exact (List.nodup_cons.1 (List.nodup_cons.1 hn).2).1
  -- the constant keys after the call
  have hc2 : p2.constKeys = p.constKeys ++ [k] := by
    show ([k].foldl (fun acc k => if k ∈ acc then acc else acc ++ [k]) p1.constKeys) = _
    rw [h1]
    simp [hk]
  have hv2 : p2.varsInit = p.varsInit := by show p1.varsInit = _; rw [h1]
  have hs2 : p2.varSlices.lookup k = some ⟨0, 0 + o.dof x⟩ := by
    show p1.varSlices.lookup k = _
    rw [h1, hv]
    simp only [colSlices]
    rw [if_neg hk, if_neg hk2, colSlices_other rest _ _ hk1, dictSet_get, if_neg hne, dictSet_get, if_pos rfl]
  obtain ⟨D', v', R', z', c', i', h3, -, -, -⟩ := solve_state o p2
  have h3 : p3 = _ := h3
  have hc3 : p3.constKeys = p.constKeys ++ [k] := by rw [h3]; exact hc2
  have hl1 : p3.varSlices.lookup k = some ⟨0, 0 + o.dof x⟩ := by
    rw [h3]
    show (colSlices o p2.constKeys p2.varsInit 0 p2.varSlices).1.lookup k = _
    rw [colSlices_const (by rw [hc2]; simp), hs2]
  have hl2 : p3.varSlices.lookup k2 = some ⟨0, 0 + o.dof x⟩ := by
    rw [h3]
    show (colSlices o p2.constKeys p2.varsInit 0 p2.varSlices).1.lookup k2 = _
    rw [hv2, hv, hc2]
    simp only [colSlices]
    rw [if_pos (by simp), if_neg (by simp [hk2, Ne.symm hne]), colSlices_other rest _ _ hk2', dictSet_get, if_pos rfl, hdof]
  refine ⟨by rw [hc3]; simp, ?_, ?_⟩
  · obtain ⟨q, -, e1, e2⟩ := objCovarianceBlock_eq k j p3
    obtain ⟨q', -, e1', e2'⟩ := objCovarianceBlock_eq k2 j p3
    rw [e1, e1', hl1, hl2, e2, e2']
  · obtain ⟨q, -, e1, e2⟩ := objCovarianceBlock_eq j k p3
    obtain ⟨q', -, e1', e2'⟩ := objCovarianceBlock_eq j k2 p3
    rw [e1, e1', hl1, hl2, e2, e2']

/-- **C107.** Anything hashable is one key, a tuple of keys too: a call with a tuple makes no other key constant. -/
theorem C107_tuple (o : VarOps S) (p : PObj K S) (t k : K) (hk : k ≠ t) :
    k ∈ (PObj.call o (.setConstant (.hashable t)) p).1.constKeys ↔ k ∈ p.constKeys := by
  show k ∈ ([t].foldl (fun acc k => if k ∈ acc then acc else acc ++ [k]) p.constKeys) ↔ _
  by_cases h : t ∈ p.constKeys
  · simp [h]
  · simp [h, hk]

/-! #### A residual that does not leave out Jacobians -/

/-- Real numbers as variables. -/
noncomputable def realOps : VarOps ℝ where
  dof _ := 1
  plus x dx := .ok (x + dx.getD 0 0)

/-- A residual that always returns its Jacobian. -/
def stubborn : Residual Unit ℝ where
  keys := [()]
  error xs := .ok xs
  jacobians _ _ := .ok [some (DMat.row 1 fun _ => 1)]

/-- LM with default tolerances. -/
noncomputable def lmCfg : ProbCfg := ⟨"LM", 100, some (1 / 10 ^ 7), none, none, 1 / 10 ^ 11⟩

theorem stubborn_outcome {p : PObj Unit ℝ} (h1 : p.cfg = lmCfg) (h2 : p.varsInit = [((), 3)]) (h3 : p.constKeys = [()])
    (h4 : p.residuals = [stubborn]) (h5 : p.losses = [l2Loss]) :
    (p.varSlices = [] → solveOutcome realOps p = .error .keyError) ∧
    (p.varSlices = [((), ⟨0, 1⟩)] → solveOutcome realOps p = .error .valueError) := by
  have hs : p.cfg.solver = "LM" := by rw [h1]; rfl
  rw [C107_refines realOps p (.inr hs)]
  have hc : ∀ d : List (Unit × Slice), colSlices realOps [()] [((), (3 : ℝ))] 0 d = (d, 0) := fun d => by simp [colSlices]
  have hrow : rowSlices [((), (3 : ℝ))] [stubborn] 0 = .ok ([⟨0, 1⟩], 1) := rfl
  have hsolve : p.toProb.solve realOps = solveLM realOps { p.toProb with
      vars := [((), 3)]
      varSlices := p.varSlices
      resSlices := [⟨0, 1⟩]
      sizeErr := 1
      sizeState := 0 } := by
    show (({ p.toProb with vars := p.varsInit } : Prob Unit ℝ).computeSize realOps >>= fun P1 =>
      if p.cfg.solver = "GN" then solveGN realOps P1 else if p.cfg.solver = "LM" then solveLM realOps P1 else .ok P1) = _
    have : ({ p.toProb with vars := p.varsInit } : Prob Unit ℝ).computeSize realOps = .ok { p.toProb with
        vars := [((), 3)]
        varSlices := p.varSlices
        resSlices := [⟨0, 1⟩]
        sizeErr := 1
        sizeState := 0 } := by
      unfold Prob.computeSize
      show (rowSlices p.varsInit p.residuals 0 >>= _) = _
      rw [h2, h4, hrow, ok_bindE']
      show Except.ok ({ p.toProb with
        vars := [((), 3)]
        varSlices := (colSlices realOps p.constKeys [((), (3 : ℝ))] 0 p.varSlices).1
        resSlices := [⟨0, 1⟩]
        sizeErr := 1
        sizeState := (colSlices realOps p.constKeys [((), (3 : ℝ))] 0 p.varSlices).2 } : Prob Unit ℝ) = _
      rw [h3, hc]
    rw [this, ok_bindE', hs]
    rfl
  rw [hsolve]
  have hz : p.residuals.zip p.losses = [(stubborn, l2Loss)] := by rw [h4, h5]; rfl
  constructor
  · intro hd
    have hL : (({ p.toProb with
        vars := [((), 3)]
        varSlices := p.varSlices
        resSlices := [⟨0, 1⟩]
        sizeErr := 1
        sizeState := 0 } : Prob Unit ℝ).linearize [((), 3)]) = .error .keyError := by
      unfold Prob.linearize
      show (asmLoop _ _ 0 (p.residuals.zip p.losses) _ >>= _) = _
      rw [hz, hd]
      rfl
    unfold solveLM
    rw [hL]
    rfl
  · intro hd
    have hL : ∃ L : Lin, L.n = 0 ∧ (({ p.toProb with
        vars := [((), 3)]
        varSlices := p.varSlices
        resSlices := [⟨0, 1⟩]
        sizeErr := 1
        sizeState := 0 } : Prob Unit ℝ).linearize [((), 3)]) = .ok L := by
      unfold Prob.linearize
      show ∃ L : Lin, L.n = 0 ∧ (asmLoop _ _ 0 (p.residuals.zip p.losses) _ >>= _) = _
      rw [hz, hd]
      exact ⟨_, rfl, rfl⟩
    obtain ⟨L, hn, hL⟩ := hL
    unfold solveLM
    rw [hL, ok_bindE']
    have : npMax (fun j => L.A j j) = .error .valueError := by
      unfold npMax
      rw [dif_neg (by omega)]
    rw [this]
    rfl

/-- **C107.** The proviso about residuals is needed: with a residual that returns the Jacobian of a constant variable,
solving once before making the variable constant changes the outcome of the second solve (here the exception: without the
first solve the Jacobian has no place and `solve` raises `KeyError`, with it the Jacobian is put in a stale place). -/
theorem C107_flags_needed : ∃ (ops ops' : List (POp Unit ℝ)) (p q : PObj Unit ℝ),
    Runs realOps (PObj.new lmCfg) ops p ∧ Runs realOps (PObj.new lmCfg) ops' q ∧
    ops.filter POp.isBuilder = ops'.filter POp.isBuilder ∧
    solveOutcome realOps p = .error .keyError ∧ solveOutcome realOps q = .error .valueError := by
  refine ⟨[.addVariable () 3, .addResidual stubborn l2Loss, .setConstant (.list [()])],
    [.addVariable () 3, .addResidual stubborn l2Loss, .solve, .setConstant (.list [()])], _, _,
    .call (.call (.call (.nil _))), .call (.call (.call (.call (.nil _)))), rfl, ?_, ?_⟩
  · exact (stubborn_outcome rfl rfl rfl rfl rfl).1 rfl
  · set p0 : PObj Unit ℝ := (PObj.call realOps (.addResidual stubborn l2Loss)
      (PObj.call realOps (.addVariable () 3) (PObj.new lmCfg)).1).1 with hp0
    have hst := solve_state realOps p0
    have hout : (PObj.call realOps .solve p0).1 = (objSolve realOps p0).1 := out_fst _ _ _
    obtain ⟨D, v, R, z, c, i, h, -, -, -⟩ := hst
    rw [hout, h]
    refine (stubborn_outcome rfl rfl ?_ rfl rfl).2 ?_
    · rfl
    · show (colSlices realOps [] [((), (3 : ℝ))] 0 []).1 = _
      simp [colSlices, dictSet, realOps]

end Verif
