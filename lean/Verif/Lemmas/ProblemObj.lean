import Verif.Model.ProblemObj
import Verif.Lemmas.Problem
import Verif.Lemmas.Assembly
import Verif.Lemmas.Iekf

/-!
The methods of the `Problem` object compute what the functions of `Verif.Model.Problem` compute, whatever the state of the
object, and leave the dictionaries of earlier results alone.
-/

namespace Verif

open Matrix

set_option linter.unusedVariables false
set_option linter.unusedSectionVars false

variable {K S : Type} [DecidableEq K] {α β : Type}

theorem pm_bind_ok {m : PM K S α} {f : α → PM K S β} {p p' : PObj K S} {a : α} (h : m p = (p', .ok a)) :
    (m >>= f) p = f a p' := by
  show (match m p with
    | (p', .ok a) => f a p'
    | (p', .error e) => (p', .error e)) = _
  rw [h]

theorem pm_bind_err {m : PM K S α} {f : α → PM K S β} {p p' : PObj K S} {e : Err} (h : m p = (p', .error e)) :
    (m >>= f) p = (p', .error e) := by
  show (match m p with
    | (p', .ok a) => f a p'
    | (p', .error e) => (p', .error e)) = _
  rw [h]

theorem pm_lift_ok {r : Except Err α} {f : α → PM K S β} {p : PObj K S} {a : α} (h : r = .ok a) :
    (PM.lift r >>= f) p = f a p := pm_bind_ok (by rw [h]; rfl)

theorem pm_lift_err {r : Except Err α} {f : α → PM K S β} {p : PObj K S} {e : Err} (h : r = .error e) :
    (PM.lift r >>= f) p = (p, .error e) := pm_bind_err (by rw [h]; rfl)

theorem pm_modify {g : PObj K S → PObj K S} {f : Unit → PM K S β} {p : PObj K S} :
    (PM.modify g >>= f) p = f () (g p) := pm_bind_ok rfl

theorem pm_get {f : PObj K S → PM K S β} {p : PObj K S} : (PM.get >>= f) p = f p p := pm_bind_ok rfl

theorem pm_pure (a : α) (p : PObj K S) : (pure a : PM K S α) p = (p, .ok a) := rfl

/-- The function model of the object. -/
def PObj.toProb (p : PObj K S) : Prob K S :=
  { cfg := p.cfg, varsInit := p.varsInit, constKeys := p.constKeys, residuals := p.residuals, losses := p.losses,
    vars := p.dict p.vars, varSlices := p.varSlices, resSlices := p.resSlices.filterMap id,
    sizeErr := (p.sizes.getD (0, 0)).1, sizeState := (p.sizes.getD (0, 0)).2,
    costHistory := p.costHistory.getD [], info := p.info, cov := p.cov }

theorem except_cases (r : Except Err α) : (∃ a, r = .ok a) ∨ ∃ e, r = .error e := by
  cases r with
  | ok a => exact .inl ⟨a, rfl⟩
  | error e => exact .inr ⟨e, rfl⟩

theorem err_bindE {e : Err} {f : α → Except Err β} : ((Except.error e : Except Err α) >>= f) = .error e := rfl

theorem ok_bindE' {a : α} {f : α → Except Err β} : ((Except.ok a : Except Err α) >>= f) = f a := rfl

/-! ### Sizes -/

theorem rowLoop_run {vars : List (K × S)} : ∀ (rs : List (Residual K S)) (i idx : ℕ) (p : PObj K S),
    ∃ R, rowLoop vars i rs idx p = ({ p with resSlices := R }, (rowSlices vars rs idx).map Prod.snd) ∧
      ∀ sl tot, rowSlices vars rs idx = .ok (sl, tot) → p.resSlices.length = i + rs.length →
        R = p.resSlices.take i ++ sl.map some
  | [], i, idx, p => ⟨p.resSlices, rfl, fun sl tot h hl => by
      cases h
      simp at hl
      rw [← hl]
      simp⟩
  | r :: rs, i, idx, p => by
    rcases except_cases (lookupAll vars r.keys) with ⟨xs, hx⟩ | ⟨e, hx⟩
    swap
    · refine ⟨p.resSlices, ?_, fun sl tot h => ?_⟩
      · rw [show rowSlices vars (r :: rs) idx = .error e by simp only [rowSlices, hx]; rfl]
        simp only [rowLoop]
        rw [pm_lift_err hx]
        rfl
      · simp only [rowSlices, hx] at h; cases h
    rcases except_cases (r.error xs) with ⟨er, he⟩ | ⟨e, he⟩
    swap
    · refine ⟨p.resSlices, ?_, fun sl tot h => ?_⟩
      · rw [show rowSlices vars (r :: rs) idx = .error e by simp only [rowSlices, hx, ok_bindE', he]; rfl]
        simp only [rowLoop]
        rw [pm_lift_ok hx, pm_lift_err he]
        rfl
      · simp only [rowSlices, hx, ok_bindE', he] at h; cases h
    have hrow : rowSlices vars (r :: rs) idx = (rowSlices vars rs (idx + er.length)).map
        fun q => (⟨idx, idx + er.length⟩ :: q.1, q.2) := by
      simp only [rowSlices, hx, ok_bindE', he]
      rcases except_cases (rowSlices vars rs (idx + er.length)) with ⟨q, hq⟩ | ⟨e, hq⟩
      · rw [hq]; rfl
      · rw [hq]; rfl
    obtain ⟨R, h1, h2⟩ := rowLoop_run rs (i + 1) (idx + er.length)
      { p with resSlices := p.resSlices.set i (some ⟨idx, idx + er.length⟩) }
    refine ⟨R, ?_, fun sl tot h hl => ?_⟩
    · simp only [rowLoop]
      rw [pm_lift_ok hx, pm_lift_ok he, pm_modify, h1, hrow]
      congr 1
      rcases except_cases (rowSlices vars rs (idx + er.length)) with ⟨q, hq⟩ | ⟨e, hq⟩
      · rw [hq]; rfl
      · rw [hq]; rfl
    · rw [hrow] at h
      rcases except_cases (rowSlices vars rs (idx + er.length)) with ⟨q, hq⟩ | ⟨e, hq⟩
      swap
      · rw [hq] at h; cases h
      rw [hq] at h
      cases h
      have hi : i < p.resSlices.length := by rw [hl]; simp
      have := h2 q.1 q.2 hq (by simp [hl]; omega)
      rw [this]
      simp only [List.map_cons]
      rw [List.take_succ_eq_append_getElem (by simpa using hi), List.take_set_of_le (by omega)]
      simp

theorem objComputeSize_ok {o : VarOps S} {p : PObj K S} {sl : List Slice} {m : ℕ}
    (h : rowSlices (p.dict p.vars) p.residuals 0 = .ok (sl, m)) :
    objComputeSize o p = ({ p with
      varSlices := (colSlices o p.constKeys (p.dict p.vars) 0 p.varSlices).1
      resSlices := sl.map some
      sizes := some (m, (colSlices o p.constKeys (p.dict p.vars) 0 p.varSlices).2) }, .ok ()) := by
  unfold objComputeSize
  rw [pm_get, pm_modify, pm_modify]
  obtain ⟨R, h1, h2⟩ := rowLoop_run (vars := p.dict p.vars) p.residuals 0 0 { p with
      varSlices := (colSlices o p.constKeys (p.dict p.vars) 0 p.varSlices).1
      resSlices := List.replicate p.residuals.length none }
  have := h2 sl m h (by simp)
  simp only [List.take_zero, List.nil_append] at this
  subst this
  rw [h] at h1
  rw [pm_bind_ok h1]
  rfl

theorem objComputeSize_err {o : VarOps S} {p : PObj K S} {e : Err}
    (h : rowSlices (p.dict p.vars) p.residuals 0 = .error e) :
    ∃ R, objComputeSize o p = ({ p with
      varSlices := (colSlices o p.constKeys (p.dict p.vars) 0 p.varSlices).1
      resSlices := R }, .error e) := by
  unfold objComputeSize
  rw [pm_get, pm_modify, pm_modify]
  obtain ⟨R, h1, h2⟩ := rowLoop_run (vars := p.dict p.vars) p.residuals 0 0 { p with
      varSlices := (colSlices o p.constKeys (p.dict p.vars) 0 p.varSlices).1
      resSlices := List.replicate p.residuals.length none }
  rw [h] at h1
  exact ⟨R, pm_bind_err h1⟩

/-! ### Assembly -/

/-- The sizes and row slices have been computed. -/
def Ready (p : PObj K S) : Prop := p.sizes.isSome = true ∧ ∃ sl : List Slice, p.resSlices = sl.map some

theorem filterMap_some (sl : List Slice) : (sl.map some).filterMap id = sl := by
  induction sl with
  | nil => rfl
  | cons a l ih => simp [ih]

theorem placeJacsO_some {vs : List (K × Slice)} {s : Slice} {w : ℝ} : ∀ (ks : List K) (js : List (Option DMat)) (H : DMat),
    placeJacsO vs (some s) w ks js H = placeJacs vs s w ks js H
  | [], js, H => by cases js <;> rfl
  | _ :: _, [], _ => rfl
  | k :: ks, none :: js, H => by simp only [placeJacsO, placeJacs]; exact placeJacsO_some ks js H
  | k :: ks, some J :: js, H => by
    simp only [placeJacsO, placeJacs]
    rcases except_cases (dictGet vs k) with ⟨cs, hc⟩ | ⟨e, hc⟩
    swap
    · rw [hc]; rfl
    rw [hc, ok_bindE', ok_bindE']
    rcases except_cases (H.setBlock s cs (J.scale w)) with ⟨H', hH⟩ | ⟨e, hH⟩
    · rw [hH, ok_bindE', ok_bindE']; exact placeJacsO_some ks js H'
    · rw [hH]; rfl

theorem asm_eq {p : PObj K S} {P : Prob K S} {sl : List Slice} {size : ℕ} (hs : p.resSlices = sl.map some)
    (h1 : P.constKeys = p.constKeys) (h2 : P.varSlices = p.varSlices) (h3 : P.resSlices = sl) (h4 : P.sizeErr = size)
    (vars : List (K × S)) : ∀ (l : List (Residual K S × Loss)) (i : ℕ) (a : Asm),
    p.asm size vars i l a = asmLoop P vars i l a
  | [], i, a => rfl
  | (r, ls) :: rest, i, a => by
    simp only [PObj.asm, asmLoop]
    rcases except_cases (lookupAll vars r.keys) with ⟨xs, hx⟩ | ⟨e, hx⟩
    swap
    · rw [hx]; rfl
    rw [hx, ok_bindE', ok_bindE']
    rcases except_cases (r.error xs) with ⟨er, he⟩ | ⟨e, he⟩
    swap
    · rw [he]; rfl
    rw [he, ok_bindE', ok_bindE', h1]
    rcases except_cases (r.jacobians xs (r.keys.map fun k => !(p.constKeys.contains k))) with ⟨js, hj⟩ | ⟨e, hj⟩
    swap
    · rw [hj]; rfl
    rw [hj, ok_bindE', ok_bindE', hs, h3]
    have hg : pyGet (sl.map some) i = (pyGet sl i).map some := by
      unfold pyGet
      rw [List.getElem?_map]
      cases sl[i]? <;> rfl
    rw [hg]
    rcases except_cases (pyGet sl i) with ⟨s, hsl⟩ | ⟨e, hsl⟩
    swap
    · rw [hsl]; rfl
    rw [hsl]
    show (setSegO size a.e (some s) _ >>= _) = (setSeg P.sizeErr a.e s _ >>= _)
    rw [h4]
    show (setSeg size a.e s _ >>= _) = _
    rcases except_cases (setSeg size a.e s (er.map (Real.sqrt (ls.weight (listNorm er)) * ·))) with ⟨e', hE⟩ | ⟨e, hE⟩
    swap
    · rw [hE]; rfl
    rw [hE, ok_bindE', ok_bindE', placeJacsO_some, h2]
    rcases except_cases (placeJacs p.varSlices s (Real.sqrt (ls.weight (listNorm er))) r.keys js a.H)
      with ⟨H', hH⟩ | ⟨e, hH⟩
    swap
    · rw [hH]; rfl
    rw [hH, ok_bindE', ok_bindE']
    exact asm_eq hs h1 h2 h3 h4 vars rest (i + 1) _

theorem objErrorJacCost_run {o : VarOps S} {p : PObj K S} (h : Ready p) (vs : Option (List (K × S))) :
    objErrorJacCost o vs p = (p, p.toProb.linearize (vs.getD (p.dict p.vars))) := by
  obtain ⟨hz, sl, hsl⟩ := h
  have hn : p.sizes.isNone = false := by
    obtain ⟨z, hz⟩ := Option.isSome_iff_exists.1 hz
    rw [hz]; rfl
  unfold objErrorJacCost
  rw [pm_get]
  simp only [hn, Bool.false_eq_true, if_false]
  rw [pm_get]
  have := asm_eq (p := p) (P := p.toProb) (size := (p.sizes.getD (0, 0)).1) hsl rfl rfl
    (by show p.resSlices.filterMap id = sl; rw [hsl, filterMap_some]) rfl
    (vs.getD (p.dict p.vars)) (p.residuals.zip p.losses) 0
    ⟨fun _ => 0, DMat.zeros (p.sizes.getD (0, 0)).1 (p.sizes.getD (0, 0)).2, 0⟩
  rw [this]
  unfold Prob.linearize
  show _ = (p, asmLoop p.toProb (vs.getD (p.dict p.vars)) 0 (p.residuals.zip p.losses)
    ⟨fun _ => 0, DMat.zeros (p.sizes.getD (0, 0)).1 (p.sizes.getD (0, 0)).2, 0⟩ >>= _)
  rcases except_cases (asmLoop p.toProb (vs.getD (p.dict p.vars)) 0 (p.residuals.zip p.losses)
    ⟨fun _ => 0, DMat.zeros (p.sizes.getD (0, 0)).1 (p.sizes.getD (0, 0)).2, 0⟩) with ⟨a, ha⟩ | ⟨e, ha⟩
  · rw [pm_lift_ok ha, ha]; rfl
  · rw [pm_lift_err ha, ha]; rfl

/-! ### Updates -/

theorem objCorrect_run {o : VarOps S} {a : ℕ} {dx : List ℝ} : ∀ (rest done : List (K × S)) (p : PObj K S),
    ∃ D, objCorrect o a dx done rest p = ({ p with dicts := D },
        (correctStates o p.constKeys p.varSlices dx rest).map fun _ => ()) ∧
      D.length = p.dicts.length ∧ (∀ b, b ≠ a → D[b]? = p.dicts[b]?) ∧
      ∀ l', correctStates o p.constKeys p.varSlices dx rest = .ok l' → a < p.dicts.length →
        p.dict a = done ++ rest → D.getD a [] = done ++ l'
  | [], done, p => ⟨p.dicts, rfl, rfl, fun _ _ => rfl, fun l' h _ hd => by cases h; exact hd⟩
  | (k, x) :: rest, done, p => by
    unfold objCorrect
    rw [pm_get]
    by_cases hk : k ∈ p.constKeys
    · rw [if_pos hk]
      obtain ⟨D, h1, h2, h3, h4⟩ := objCorrect_run (o := o) (a := a) (dx := dx) rest (done ++ [(k, x)]) p
      have hc : correctStates o p.constKeys p.varSlices dx ((k, x) :: rest) =
          (correctStates o p.constKeys p.varSlices dx rest).map fun l => (k, x) :: l := by
        simp only [correctStates, if_pos hk]
        cases correctStates o p.constKeys p.varSlices dx rest <;> rfl
      refine ⟨D, ?_, h2, h3, fun l' h ha hd => ?_⟩
      · rw [h1, hc]
        cases correctStates o p.constKeys p.varSlices dx rest <;> rfl
      · rw [hc] at h
        rcases except_cases (correctStates o p.constKeys p.varSlices dx rest) with ⟨l, hl⟩ | ⟨e, hl⟩
        swap
        · rw [hl] at h; cases h
        rw [hl] at h
        cases h
        rw [h4 l hl ha (by simpa using hd)]
        simp
    · rw [if_neg hk]
      rcases except_cases (dictGet p.varSlices k) with ⟨s, hs⟩ | ⟨e, hs⟩
      swap
      · have hc : correctStates o p.constKeys p.varSlices dx ((k, x) :: rest) = .error e := by
          simp only [correctStates, if_neg hk, hs]; rfl
        refine ⟨p.dicts, ?_, rfl, fun _ _ => rfl, fun l' h => ?_⟩
        · rw [pm_lift_err hs, hc]; rfl
        · rw [hc] at h; cases h
      rw [pm_lift_ok hs]
      rcases except_cases (o.plus x ((dx.drop s.start).take (s.stop - s.start))) with ⟨x', hx⟩ | ⟨e, hx⟩
      swap
      · have hc : correctStates o p.constKeys p.varSlices dx ((k, x) :: rest) = .error e := by
          simp only [correctStates, if_neg hk, hs, ok_bindE', hx]; rfl
        refine ⟨p.dicts, ?_, rfl, fun _ _ => rfl, fun l' h => ?_⟩
        · rw [pm_lift_err hx, hc]; rfl
        · rw [hc] at h; cases h
      rw [pm_lift_ok hx, pm_modify]
      have hc : correctStates o p.constKeys p.varSlices dx ((k, x) :: rest) =
          (correctStates o p.constKeys p.varSlices dx rest).map fun l => (k, x') :: l := by
        simp only [correctStates, if_neg hk, hs, ok_bindE', hx]
        cases correctStates o p.constKeys p.varSlices dx rest <;> rfl
      obtain ⟨D, h1, h2, h3, h4⟩ := objCorrect_run (o := o) (a := a) (dx := dx) rest (done ++ [(k, x')])
        { p with dicts := p.dicts.set a (done ++ (k, x') :: rest) }
      refine ⟨D, ?_, by simpa using h2, fun b hb => ?_, fun l' h ha hd => ?_⟩
      · rw [h1, hc]
        cases correctStates o p.constKeys p.varSlices dx rest <;> rfl
      · rw [h3 b hb]
        simp [Ne.symm hb]
      · rw [hc] at h
        rcases except_cases (correctStates o p.constKeys p.varSlices dx rest) with ⟨l, hl⟩ | ⟨e, hl⟩
        swap
        · rw [hl] at h; cases h
        rw [hl] at h
        cases h
        rw [h4 l hl (by simpa using ha) (by simp [PObj.dict, ha])]
        simp

/-! ### Which fields the assembly depends on -/

/-- `asmLoop` depends on the problem only through the constant keys, the sizes, the row slices and the way the Jacobians
are placed. -/
theorem asmLoop_congr {P Q : Prob K S} (h1 : P.constKeys = Q.constKeys) (h3 : P.resSlices = Q.resSlices)
    (h4 : P.sizeErr = Q.sizeErr) {vars : List (K × S)} : ∀ (l : List (Residual K S × Loss)) (i : ℕ) (a : Asm),
    (∀ q ∈ l, ∀ xs, lookupAll vars q.1.keys = .ok xs → ∀ js,
      q.1.jacobians xs (q.1.keys.map fun k => !(Q.constKeys.contains k)) = .ok js →
      ∀ rs w H, placeJacs P.varSlices rs w q.1.keys js H = placeJacs Q.varSlices rs w q.1.keys js H) →
    asmLoop P vars i l a = asmLoop Q vars i l a
  | [], i, a, _ => rfl
  | (r, ls) :: rest, i, a, hj => by
    simp only [asmLoop]
    rcases except_cases (lookupAll vars r.keys) with ⟨xs, hx⟩ | ⟨e, hx⟩
    swap
    · rw [hx]; rfl
    rw [hx, ok_bindE', ok_bindE']
    rcases except_cases (r.error xs) with ⟨er, he⟩ | ⟨e, he⟩
    swap
    · rw [he]; rfl
    rw [he, ok_bindE', ok_bindE', h1]
    rcases except_cases (r.jacobians xs (r.keys.map fun k => !(Q.constKeys.contains k))) with ⟨js, hjs⟩ | ⟨e, hjs⟩
    swap
    · rw [hjs]; rfl
    rw [hjs, ok_bindE', ok_bindE', h3]
    rcases except_cases (pyGet Q.resSlices i) with ⟨s, hsl⟩ | ⟨e, hsl⟩
    swap
    · rw [hsl]; rfl
    rw [hsl, ok_bindE', ok_bindE', h4]
    rcases except_cases (setSeg Q.sizeErr a.e s (er.map (Real.sqrt (ls.weight (listNorm er)) * ·)))
      with ⟨e', hE⟩ | ⟨e, hE⟩
    swap
    · rw [hE]; rfl
    rw [hE, ok_bindE', ok_bindE', hj (r, ls) (List.mem_cons_self ..) xs hx js hjs]
    rcases except_cases (placeJacs Q.varSlices s (Real.sqrt (ls.weight (listNorm er))) r.keys js a.H)
      with ⟨H', hH⟩ | ⟨e, hH⟩
    swap
    · rw [hH]; rfl
    rw [hH, ok_bindE', ok_bindE']
    exact asmLoop_congr h1 h3 h4 rest (i + 1) _ fun q hq => hj q (List.mem_cons_of_mem _ hq)

theorem linearize_congr {P Q : Prob K S} (h1 : P.constKeys = Q.constKeys) (h3 : P.resSlices = Q.resSlices)
    (h4 : P.sizeErr = Q.sizeErr) (h5 : P.sizeState = Q.sizeState) (h6 : P.residuals = Q.residuals)
    (h7 : P.losses = Q.losses) (vars : List (K × S))
    (hj : ∀ r ∈ Q.residuals, ∀ xs, lookupAll vars r.keys = .ok xs → ∀ js,
      r.jacobians xs (r.keys.map fun k => !(Q.constKeys.contains k)) = .ok js →
      ∀ rs w H, placeJacs P.varSlices rs w r.keys js H = placeJacs Q.varSlices rs w r.keys js H) :
    P.linearize vars = Q.linearize vars := by
  unfold Prob.linearize
  rw [h4, h5, h6, h7, asmLoop_congr h1 h3 h4 _ 0 _ fun q hq => hj q.1 (List.of_mem_zip hq).1]

theorem linearize_same {P Q : Prob K S} (h1 : P.constKeys = Q.constKeys) (h2 : P.varSlices = Q.varSlices)
    (h3 : P.resSlices = Q.resSlices)
    (h4 : P.sizeErr = Q.sizeErr) (h5 : P.sizeState = Q.sizeState) (h6 : P.residuals = Q.residuals)
    (h7 : P.losses = Q.losses) (vars : List (K × S)) : P.linearize vars = Q.linearize vars :=
  linearize_congr h1 h3 h4 h5 h6 h7 vars fun r hr xs hx js hj rs w H => by rw [h2]

/-! ### One pass of a solver -/

/-- The locals together with the variables. -/
def SolverLocals.toLoop (v : List (K × S)) (s : SolverLocals) : LoopState K S :=
  ⟨v, s.lin, s.costs, s.deltaCost, s.gradNorm, s.dx, s.info, s.mu, s.nu⟩

/-- The locals of a loop state. -/
def LoopState.locals (s : LoopState K S) : SolverLocals := ⟨s.lin, s.costs, s.deltaCost, s.gradNorm, s.dx, s.info, s.mu, s.nu⟩

/-- Only dictionaries made after `base` dictionaries existed have been written, and `self.variables` is one of them. -/
def Frame (base : ℕ) (p p' : PObj K S) : Prop :=
  ∃ D v, p' = { p with dicts := D, vars := v } ∧ base ≤ v ∧ v < D.length ∧ p.dicts.length ≤ D.length ∧
    ∀ b, b < base → D[b]? = p.dicts[b]?

/-- `self.variables` is a dictionary made after `base` dictionaries existed. -/
def Own (base : ℕ) (p : PObj K S) : Prop := base ≤ p.vars ∧ p.vars < p.dicts.length

theorem Frame.refl {base : ℕ} {p : PObj K S} (h : Own base p) : Frame base p p :=
  ⟨p.dicts, p.vars, rfl, h.1, h.2, le_refl _, fun _ _ => rfl⟩

theorem Frame.trans {base : ℕ} {p q r : PObj K S} (h : Frame base p q) (h' : Frame base q r) : Frame base p r := by
  obtain ⟨D, v, rfl, h1, h2, h3, h4⟩ := h
  obtain ⟨D', v', rfl, h1', h2', h3', h4'⟩ := h'
  exact ⟨D', v', rfl, h1', h2', h3.trans h3', fun b hb => (h4' b hb).trans (h4 b hb)⟩

theorem Frame.own {base : ℕ} {p q : PObj K S} (h : Frame base p q) : Own base q := by
  obtain ⟨D, v, rfl, h1, h2, -, -⟩ := h
  exact ⟨h1, h2⟩

theorem Frame.ready {base : ℕ} {p q : PObj K S} (h : Frame base p q) (hp : Ready p) : Ready q := by
  obtain ⟨D, v, rfl, -, -, -, -⟩ := h
  exact hp

theorem Frame.linearize {base : ℕ} {p q : PObj K S} (h : Frame base p q) (w : List (K × S)) :
    q.toProb.linearize w = p.toProb.linearize w := by
  obtain ⟨D, v, rfl, -, -, -, -⟩ := h
  exact linearize_same (P := PObj.toProb { p with dicts := D, vars := v }) (Q := p.toProb) rfl rfl rfl rfl rfl rfl rfl w

theorem gnStep_frame {o : VarOps S} {base : ℕ} {p q : PObj K S} (h : Frame base p q) (s : LoopState K S) :
    gnStep o q.toProb s = gnStep o p.toProb s := by
  have hl : q.toProb.linearize = p.toProb.linearize := funext h.linearize
  unfold gnStep
  rw [hl]
  obtain ⟨D, v, rfl, -, -, -, -⟩ := h
  rfl

theorem lmStep_frame {o : VarOps S} {base : ℕ} {p q : PObj K S} (h : Frame base p q) (s : LoopState K S) :
    lmStep o q.toProb s = lmStep o p.toProb s := by
  have hl : q.toProb.linearize = p.toProb.linearize := funext h.linearize
  unfold lmStep
  rw [hl]
  obtain ⟨D, v, rfl, -, -, -, -⟩ := h
  rfl

/-- A loop body on the object does what the function does. -/
def StepRun (base : ℕ) (m : SolverLocals → PM K S (SolverLocals × Bool)) (f : Prob K S → LoopState K S →
    Except Err (LoopState K S × Bool)) : Prop :=
  ∀ (p : PObj K S) (s : SolverLocals), Ready p → Own base p →
    ∃ p', m s p = (p', (f p.toProb (s.toLoop (p.dict p.vars))).map fun r => (r.1.locals, r.2)) ∧ Frame base p p' ∧
      ∀ r, f p.toProb (s.toLoop (p.dict p.vars)) = .ok r → p'.dict p'.vars = r.1.vars

theorem objCorrect_frame {o : VarOps S} {base a : ℕ} {dx : List ℝ} {p : PObj K S} (ho : Own base p) (ha : base ≤ a)
    (hl : a < p.dicts.length) (d : List (K × S)) (hd : p.dict a = d) :
    ∃ p', objCorrect o a dx [] d p = (p', (correctStates o p.constKeys p.varSlices dx d).map fun _ => ()) ∧
      Frame base p p' ∧ p'.vars = p.vars ∧ p'.dicts.length = p.dicts.length ∧ (∀ b, b ≠ a → p'.dict b = p.dict b) ∧
      ∀ l', correctStates o p.constKeys p.varSlices dx d = .ok l' → p'.dict a = l' := by
  obtain ⟨D, h1, h2, h3, h4⟩ := objCorrect_run (o := o) (a := a) (dx := dx) d [] p
  refine ⟨{ p with dicts := D }, h1, ⟨D, p.vars, rfl, ho.1, by rw [h2]; exact ho.2, by rw [h2],
    fun b hb => h3 b (by omega)⟩, rfl, h2, fun b hb => ?_, fun l' h => ?_⟩
  · show D.getD b [] = p.dicts.getD b []
    rw [List.getD_eq_getElem?_getD, List.getD_eq_getElem?_getD, h3 b hb]
  · have := h4 l' h hl (by simpa using hd)
    simpa [PObj.dict] using this

theorem gnStep_eq (o : VarOps S) (p : PObj K S) (v : List (K × S)) (s : SolverLocals) : gnStep o p.toProb (s.toLoop v) =
    if isConverged p.cfg s.deltaCost (s.costs.headD 0) s.dx s.gradNorm = true then .ok (s.toLoop v, true)
    else spsolve s.lin.A s.lin.b >>= fun δ =>
      correctStates o p.constKeys p.varSlices (List.ofFn δ) v >>= fun v' =>
      p.toProb.linearize v' >>= fun L' =>
      L'.gradNorm >>= fun g =>
      .ok (({ s with
        lin := L', costs := L'.cost :: s.costs, deltaCost := deltaCostOf (L'.cost :: s.costs) s.deltaCost,
        gradNorm := some g, dx := vecNorm δ, info := some ⟨_, s.lin.A⟩ } : SolverLocals).toLoop v', false) := rfl

theorem lmStep_eq (o : VarOps S) (p : PObj K S) (v : List (K × S)) (s : SolverLocals) : lmStep o p.toProb (s.toLoop v) =
    (spsolve (s.lin.A + s.mu • (1 : Mat s.lin.n s.lin.n)) s.lin.b >>= fun δ =>
    if isConverged p.cfg s.deltaCost (s.costs.headD 0) (vecNorm δ) s.gradNorm = true then
      .ok (({ s with dx := vecNorm δ } : SolverLocals).toLoop v, true)
    else
      correctStates o p.constKeys p.varSlices (List.ofFn δ) v >>= fun v' =>
      p.toProb.linearize v' >>= fun Lt =>
      Lt.gradNorm >>= fun g =>
      .ok (lmUpdate (s.toLoop v) (vecNorm δ) v' Lt (gainDen δ s.lin.b s.mu) g, false)) := rfl

theorem objGnStep_run (o : VarOps S) (base : ℕ) : StepRun (K := K) base (objGnStep o) (gnStep o) := by
  intro p s hr ho
  unfold objGnStep
  rw [pm_get]
  rw [gnStep_eq]
  by_cases hc : isConverged p.cfg s.deltaCost (s.costs.headD 0) s.dx s.gradNorm = true
  · rw [if_pos hc, if_pos hc]
    exact ⟨p, rfl, Frame.refl ho, fun r h => by cases h; rfl⟩
  rw [if_neg hc, if_neg hc]
  rcases except_cases (spsolve s.lin.A s.lin.b) with ⟨δ, hδ⟩ | ⟨e, hδ⟩
  swap
  · rw [pm_lift_err hδ, hδ]
    exact ⟨p, rfl, Frame.refl ho, fun r h => by cases h⟩
  rw [pm_lift_ok hδ, hδ, ok_bindE']
  obtain ⟨p1, h1, hf1, hv1, hlen1, hoth1, hd1⟩ := objCorrect_frame (o := o) (dx := List.ofFn δ) ho ho.1 ho.2
    (p.dict p.vars) rfl
  rcases except_cases (correctStates o p.constKeys p.varSlices (List.ofFn δ) (p.dict p.vars)) with ⟨v', hv⟩ | ⟨e, hv⟩
  swap
  · rw [hv] at h1
    rw [pm_bind_err h1, hv]
    exact ⟨p1, rfl, hf1, fun r h => by cases h⟩
  rw [hv] at h1
  rw [pm_bind_ok h1, hv, ok_bindE']
  have hd : p1.dict p1.vars = v' := by rw [hv1]; exact hd1 v' hv
  have hlin := objErrorJacCost_run (o := o) (hf1.ready hr) none
  rw [Option.getD_none, hd, hf1.linearize] at hlin
  rcases except_cases (p.toProb.linearize v') with ⟨L', hL⟩ | ⟨e, hL⟩
  swap
  · rw [hL] at hlin
    rw [pm_bind_err hlin, hL]
    exact ⟨p1, rfl, hf1, fun r h => by cases h⟩
  rw [hL] at hlin
  rw [pm_bind_ok hlin, hL, ok_bindE']
  rcases except_cases L'.gradNorm with ⟨g, hg⟩ | ⟨e, hg⟩
  swap
  · rw [pm_lift_err hg, hg]
    exact ⟨p1, rfl, hf1, fun r h => by cases h⟩
  rw [pm_lift_ok hg, hg]
  exact ⟨p1, rfl, hf1, fun r h => by cases h; exact hd⟩

theorem objLmStep_run (o : VarOps S) (base : ℕ) : StepRun (K := K) base (objLmStep o) (lmStep o) := by
  intro p s hr ho
  unfold objLmStep
  rw [pm_get]
  rw [lmStep_eq]
  rcases except_cases (spsolve (s.lin.A + s.mu • (1 : Mat _ _)) s.lin.b) with ⟨δ, hδ⟩ | ⟨e, hδ⟩
  swap
  · rw [pm_lift_err hδ, hδ]
    exact ⟨p, rfl, Frame.refl ho, fun r h => by cases h⟩
  rw [pm_lift_ok hδ, hδ, ok_bindE']
  by_cases hc : isConverged p.cfg s.deltaCost (s.costs.headD 0) (vecNorm δ) s.gradNorm = true
  · rw [if_pos hc, if_pos hc]
    exact ⟨p, rfl, Frame.refl ho, fun r h => by cases h; rfl⟩
  rw [if_neg hc, if_neg hc]
  -- the copy
  set p0 : PObj K S := { p with dicts := p.dicts ++ [p.dict p.vars] } with hp0
  have halloc : objAlloc (p.dict p.vars) p = (p0, .ok p.dicts.length) := rfl
  rw [pm_bind_ok halloc]
  have hf0 : Frame base p p0 := ⟨p.dicts ++ [p.dict p.vars], p.vars, rfl, ho.1, by have := ho.2; simp; omega, by simp, fun b hb => by
    rw [List.getElem?_append_left (by have := ho.1; have := ho.2; omega)]⟩
  have hdp0 : p0.dict p.dicts.length = p.dict p.vars := by simp [PObj.dict, hp0]
  have hvars0 : p0.dict p0.vars = p.dict p.vars := by
    show (p.dicts ++ [p.dict p.vars]).getD p.vars [] = p.dicts.getD p.vars []
    rw [List.getD_eq_getElem?_getD, List.getD_eq_getElem?_getD, List.getElem?_append_left ho.2]
  obtain ⟨p1, h1, hf1, hv1, hlen1, hoth1, hd1⟩ := objCorrect_frame (o := o) (dx := List.ofFn δ) (a := p.dicts.length) hf0.own
    (by have := ho.1; have := ho.2; omega) (by simp [hp0]) (p.dict p.vars) hdp0
  have hk1 : p0.constKeys = p.constKeys := rfl
  have hk2 : p0.varSlices = p.varSlices := rfl
  rw [hk1, hk2] at h1 hd1
  have hf01 := hf0.trans hf1
  rcases except_cases (correctStates o p.constKeys p.varSlices (List.ofFn δ) (p.dict p.vars)) with ⟨v', hv⟩ | ⟨e, hv⟩
  swap
  · rw [hv] at h1
    rw [pm_bind_err h1, hv]
    exact ⟨p1, rfl, hf01, fun r h => by cases h⟩
  rw [hv] at h1
  rw [pm_bind_ok h1, hv, ok_bindE', pm_get]
  have hd : p1.dict p.dicts.length = v' := hd1 v' hv
  have hold : p1.dict p1.vars = p.dict p.vars := by
    rw [hv1, hoth1 _ (by show p.vars ≠ _; have := ho.2; omega), hvars0]
  have hlin := objErrorJacCost_run (o := o) (hf01.ready hr) (some (p1.dict p.dicts.length))
  rw [Option.getD_some, hf01.linearize, hd] at hlin
  rw [hd]
  rcases except_cases (p.toProb.linearize v') with ⟨Lt, hL⟩ | ⟨e, hL⟩
  swap
  · rw [hL] at hlin
    rw [pm_bind_err hlin, hL]
    exact ⟨p1, rfl, hf01, fun r h => by cases h⟩
  rw [hL] at hlin
  rw [pm_bind_ok hlin, hL, ok_bindE']
  by_cases hg : gainPositive (s.costs.headD 0 - Lt.cost) (gainDen δ s.lin.b s.mu) = true
  · rw [if_pos hg, pm_modify]
    set p2 : PObj K S := { p1 with vars := p.dicts.length } with hp2
    have hf2 : Frame base p1 p2 := ⟨p1.dicts, p.dicts.length, rfl, by have := ho.1; have := ho.2; omega,
      by rw [hlen1]; simp [hp0], le_refl _, fun _ _ => rfl⟩
    have hd2 : p2.dict p2.vars = v' := hd
    have hf02 := hf01.trans hf2
    have hlin2 := objErrorJacCost_run (o := o) (hf02.ready hr) none
    rw [Option.getD_none, hd2, hf02.linearize, hL] at hlin2
    rw [pm_bind_ok hlin2]
    rcases except_cases Lt.gradNorm with ⟨g, hgn⟩ | ⟨e, hgn⟩
    swap
    · rw [pm_lift_err hgn, hgn]
      exact ⟨p2, rfl, hf02, fun r h => by cases h⟩
    rw [pm_lift_ok hgn, hgn]
    have hup : lmUpdate (s.toLoop (p.dict p.vars)) (vecNorm δ) v' Lt (gainDen δ s.lin.b s.mu) g =
        ({ s with
          lin := Lt, costs := Lt.cost :: s.costs, deltaCost := deltaCostOf (Lt.cost :: s.costs) s.deltaCost,
          gradNorm := some g, dx := vecNorm δ, info := some ⟨_, Lt.A⟩,
          mu := s.mu * gainFactor (s.costs.headD 0 - Lt.cost) (gainDen δ s.lin.b s.mu), nu := 2 } : SolverLocals).toLoop v' := by
      unfold lmUpdate
      show (if gainPositive (s.costs.headD 0 - Lt.cost) (gainDen δ s.lin.b s.mu) = true then _ else _) = _
      rw [if_pos hg]
      rfl
    refine ⟨p2, ?_, hf02, fun r h => ?_⟩
    · rw [ok_bindE']
      show _ = (p2, Except.ok ((lmUpdate (s.toLoop (p.dict p.vars)) (vecNorm δ) v' Lt (gainDen δ s.lin.b s.mu) g).locals, false))
      rw [hup]
      rfl
    · have h' : (lmUpdate (s.toLoop (p.dict p.vars)) (vecNorm δ) v' Lt (gainDen δ s.lin.b s.mu) g, false) = r :=
        Except.ok.inj h
      rw [← h', hup]
      exact hd2
  · rw [if_neg hg]
    rcases except_cases Lt.gradNorm with ⟨g, hgn⟩ | ⟨e, hgn⟩
    swap
    · rw [pm_lift_err hgn, hgn]
      exact ⟨p1, rfl, hf01, fun r h => by cases h⟩
    rw [pm_lift_ok hgn, hgn]
    have hup : lmUpdate (s.toLoop (p.dict p.vars)) (vecNorm δ) v' Lt (gainDen δ s.lin.b s.mu) g =
        ({ s with
          deltaCost := deltaCostOf s.costs s.deltaCost, gradNorm := some g, dx := vecNorm δ,
          mu := s.mu * s.nu, nu := 2 * s.nu } : SolverLocals).toLoop (p.dict p.vars) := by
      unfold lmUpdate
      show (if gainPositive (s.costs.headD 0 - Lt.cost) (gainDen δ s.lin.b s.mu) = true then _ else _) = _
      rw [if_neg hg]
      rfl
    refine ⟨p1, ?_, hf01, fun r h => ?_⟩
    · rw [ok_bindE']
      show _ = (p1, Except.ok ((lmUpdate (s.toLoop (p.dict p.vars)) (vecNorm δ) v' Lt (gainDen δ s.lin.b s.mu) g).locals, false))
      rw [hup]
      rfl
    · have h' : (lmUpdate (s.toLoop (p.dict p.vars)) (vecNorm δ) v' Lt (gainDen δ s.lin.b s.mu) g, false) = r :=
        Except.ok.inj h
      rw [← h', hup]
      exact hold

/-! ### The loops and the solvers -/

theorem objLoop_run {base : ℕ} {m : SolverLocals → PM K S (SolverLocals × Bool)}
    {f : Prob K S → LoopState K S → Except Err (LoopState K S × Bool)} (hm : StepRun base m f)
    (hf : ∀ (p q : PObj K S), Frame base p q → ∀ s, f q.toProb s = f p.toProb s) :
    ∀ (k : ℕ) (p : PObj K S) (s : SolverLocals), Ready p → Own base p →
      ∃ p', objLoop m k s p = (p', (iterLoop (f p.toProb) k (s.toLoop (p.dict p.vars))).map LoopState.locals) ∧
        Frame base p p' ∧
        ∀ r, iterLoop (f p.toProb) k (s.toLoop (p.dict p.vars)) = .ok r → p'.dict p'.vars = r.vars
  | 0, p, s, hr, ho => ⟨p, rfl, Frame.refl ho, fun r h => by cases h; rfl⟩
  | k + 1, p, s, hr, ho => by
    obtain ⟨p1, h1, hf1, hd1⟩ := hm p s hr ho
    unfold objLoop iterLoop
    rcases except_cases (f p.toProb (s.toLoop (p.dict p.vars))) with ⟨r, h⟩ | ⟨e, h⟩
    swap
    · rw [h] at h1
      rw [pm_bind_err h1, h]
      exact ⟨p1, rfl, hf1, fun r h => by cases h⟩
    rw [h] at h1
    rw [pm_bind_ok h1, h, ok_bindE']
    have hd := hd1 r h
    obtain ⟨s', b⟩ := r
    cases b with
    | true => exact ⟨p1, rfl, hf1, fun r h => by cases h; exact hd⟩
    | false =>
      obtain ⟨p2, h2, hf2, hd2⟩ := objLoop_run hm hf k p1 s'.locals (hf1.ready hr) hf1.own
      have e1 : f p1.toProb = f p.toProb := funext fun s => hf p p1 hf1 s
      have e2 : s'.locals.toLoop (p1.dict p1.vars) = s' := by rw [hd]; rfl
      rw [e1, e2] at h2 hd2
      exact ⟨p2, h2, hf1.trans hf2, hd2⟩

/-- Only dictionaries made after `base` dictionaries existed, the reference `self.variables`, the cost history and the
information matrix have changed. -/
def Kept (base : ℕ) (p p' : PObj K S) : Prop :=
  ∃ D v c i, p' = { p with dicts := D, vars := v, costHistory := c, info := i } ∧ base ≤ v ∧ v < D.length ∧
    p.dicts.length ≤ D.length ∧ ∀ b, b < base → D[b]? = p.dicts[b]?

theorem Frame.kept {base : ℕ} {p q : PObj K S} (h : Frame base p q) (c : Option (List ℝ)) (i : Option SqMat) :
    Kept base p { q with costHistory := c, info := i } := by
  obtain ⟨D, v, rfl, h1, h2, h3, h4⟩ := h
  exact ⟨D, v, c, i, rfl, h1, h2, h3, h4⟩

theorem Frame.kept' {base : ℕ} {p q : PObj K S} (h : Frame base p q) : Kept base p q := h.kept q.costHistory q.info

/-- A method on the object does what the function does. -/
def SolverRun (base : ℕ) (m : PM K S Unit) (f : Prob K S → Except Err (Prob K S)) : Prop :=
  ∀ p : PObj K S, Ready p → Own base p → ∃ p', m p = (p', (f p.toProb).map fun _ => ()) ∧ Kept base p p' ∧
    ∀ Q, f p.toProb = .ok Q → p'.toProb = Q ∧ p'.costHistory.isSome = true

theorem objSolveGN_run (o : VarOps S) (base : ℕ) : SolverRun (K := K) base (objSolveGN o) (solveGN o) := by
  intro p hr ho
  unfold objSolveGN
  have hs : solveGN o p.toProb = (p.toProb.linearize (p.dict p.vars) >>= fun L =>
      iterLoop (gnStep o p.toProb) p.cfg.maxIters
        ((⟨L, [L.cost], none, none, 10, none, 0, 0⟩ : SolverLocals).toLoop (p.dict p.vars)) >>= fun s =>
      p.toProb.linearize s.vars >>= fun Lf =>
      match s.info with
      | none => .error .unboundLocal
      | some A => .ok { p.toProb with vars := s.vars, costHistory := (Lf.cost :: s.costs).reverse, info := some A }) := rfl
  rw [hs]
  have h1 := objErrorJacCost_run (o := o) hr none
  rw [Option.getD_none] at h1
  rcases except_cases (p.toProb.linearize (p.dict p.vars)) with ⟨L, hL⟩ | ⟨e, hL⟩
  swap
  · rw [hL] at h1
    rw [pm_bind_err h1, hL]
    exact ⟨p, rfl, (Frame.refl ho).kept', fun Q h => by cases h⟩
  rw [hL] at h1
  rw [pm_bind_ok h1, hL, ok_bindE', pm_get]
  obtain ⟨p1, h2, hf1, hd1⟩ := objLoop_run (objGnStep_run o base) (fun p q h s => gnStep_frame h s) p.cfg.maxIters p
    ⟨L, [L.cost], none, none, 10, none, 0, 0⟩ hr ho
  rcases except_cases (iterLoop (gnStep o p.toProb) p.cfg.maxIters
    ((⟨L, [L.cost], none, none, 10, none, 0, 0⟩ : SolverLocals).toLoop (p.dict p.vars))) with ⟨s, hS⟩ | ⟨e, hS⟩
  swap
  · rw [hS] at h2
    rw [pm_bind_err h2, hS]
    exact ⟨p1, rfl, hf1.kept', fun Q h => by cases h⟩
  rw [hS] at h2
  rw [pm_bind_ok h2, hS, ok_bindE']
  have hd := hd1 s hS
  have h3 := objErrorJacCost_run (o := o) (hf1.ready hr) none
  rw [Option.getD_none, hd, hf1.linearize] at h3
  rcases except_cases (p.toProb.linearize s.vars) with ⟨Lf, hLf⟩ | ⟨e, hLf⟩
  swap
  · rw [hLf] at h3
    rw [pm_bind_err h3, hLf]
    exact ⟨p1, rfl, hf1.kept', fun Q h => by cases h⟩
  rw [hLf] at h3
  rw [pm_bind_ok h3, hLf, ok_bindE', pm_modify]
  have hi : s.locals.info = s.info := rfl
  have hcs : s.locals.costs = s.costs := rfl
  rw [hi, hcs]
  rcases hinfo : s.info with _ | A
  · exact ⟨_, rfl, hf1.kept (some (Lf.cost :: s.costs).reverse) p1.info, fun Q h => by cases h⟩
  · refine ⟨_, rfl, hf1.kept (some (Lf.cost :: s.costs).reverse) (some A), fun Q h => ?_⟩
    cases h
    refine ⟨?_, rfl⟩
    obtain ⟨D, v, rfl, -, -, -, -⟩ := hf1
    have hd' : PObj.dict { p with dicts := D, vars := v } v = s.vars := hd
    simp only [PObj.toProb]
    rw [show PObj.dict { p with dicts := D, vars := v, costHistory := some (Lf.cost :: s.costs).reverse, info := some A } v =
      s.vars from hd']
    rfl

theorem objSolveLM_run (o : VarOps S) (base : ℕ) : SolverRun (K := K) base (objSolveLM o) (solveLM o) := by
  intro p hr ho
  unfold objSolveLM
  have hs : solveLM o p.toProb = (p.toProb.linearize (p.dict p.vars) >>= fun L =>
      npMax (fun j => L.A j j) >>= fun mx =>
      iterLoop (lmStep o p.toProb) p.cfg.maxIters
        ((⟨L, [L.cost], none, none, 10, some ⟨_, L.A⟩, p.cfg.tau * mx, 2⟩ : SolverLocals).toLoop (p.dict p.vars)) >>= fun s =>
      p.toProb.linearize s.vars >>= fun Lf =>
      .ok { p.toProb with vars := s.vars, costHistory := (Lf.cost :: s.costs).reverse, info := s.info }) := rfl
  rw [hs]
  have h1 := objErrorJacCost_run (o := o) hr none
  rw [Option.getD_none] at h1
  rcases except_cases (p.toProb.linearize (p.dict p.vars)) with ⟨L, hL⟩ | ⟨e, hL⟩
  swap
  · rw [hL] at h1
    rw [pm_bind_err h1, hL]
    exact ⟨p, rfl, (Frame.refl ho).kept', fun Q h => by cases h⟩
  rw [hL] at h1
  rw [pm_bind_ok h1, hL, ok_bindE']
  rcases except_cases (npMax (fun j => L.A j j)) with ⟨mx, hmx⟩ | ⟨e, hmx⟩
  swap
  · rw [pm_lift_err hmx, hmx]
    exact ⟨p, rfl, (Frame.refl ho).kept', fun Q h => by cases h⟩
  rw [pm_lift_ok hmx, hmx, ok_bindE', pm_get]
  obtain ⟨p1, h2, hf1, hd1⟩ := objLoop_run (objLmStep_run o base) (fun p q h s => lmStep_frame h s) p.cfg.maxIters p
    ⟨L, [L.cost], none, none, 10, some ⟨_, L.A⟩, p.cfg.tau * mx, 2⟩ hr ho
  rcases except_cases (iterLoop (lmStep o p.toProb) p.cfg.maxIters
    ((⟨L, [L.cost], none, none, 10, some ⟨_, L.A⟩, p.cfg.tau * mx, 2⟩ : SolverLocals).toLoop (p.dict p.vars)))
    with ⟨s, hS⟩ | ⟨e, hS⟩
  swap
  · rw [hS] at h2
    rw [pm_bind_err h2, hS]
    exact ⟨p1, rfl, hf1.kept', fun Q h => by cases h⟩
  rw [hS] at h2
  rw [pm_bind_ok h2, hS, ok_bindE']
  have hd := hd1 s hS
  have h3 := objErrorJacCost_run (o := o) (hf1.ready hr) none
  rw [Option.getD_none, hd, hf1.linearize] at h3
  rcases except_cases (p.toProb.linearize s.vars) with ⟨Lf, hLf⟩ | ⟨e, hLf⟩
  swap
  · rw [hLf] at h3
    rw [pm_bind_err h3, hLf]
    exact ⟨p1, rfl, hf1.kept', fun Q h => by cases h⟩
  rw [hLf] at h3
  rw [pm_bind_ok h3, hLf, ok_bindE', pm_modify]
  have hi : s.locals.info = s.info := rfl
  have hcs : s.locals.costs = s.costs := rfl
  rw [hi, hcs]
  refine ⟨_, rfl, hf1.kept (some (Lf.cost :: s.costs).reverse) s.info, fun Q h => ?_⟩
  cases h
  refine ⟨?_, rfl⟩
  obtain ⟨D, v, rfl, -, -, -, -⟩ := hf1
  have hd' : PObj.dict { p with dicts := D, vars := v } v = s.vars := hd
  simp only [PObj.toProb]
  rw [show PObj.dict { p with dicts := D, vars := v, costHistory := some (Lf.cost :: s.costs).reverse, info := s.info } v =
    s.vars from hd']
  rfl

/-- What is left of the object when `solve` ends, normally or not: the definition of the problem, the cached covariance and
the dictionaries of earlier results are as before; the slices of other variables are kept. -/
def Solved (o : VarOps S) (p p' : PObj K S) : Prop :=
  ∃ D v R z c i, p' = { p with
      dicts := D
      vars := v
      varSlices := (colSlices o p.constKeys p.varsInit 0 p.varSlices).1
      resSlices := R
      sizes := z
      costHistory := c
      info := i } ∧
    p.dicts.length ≤ v ∧ v < D.length ∧ ∀ b, b < p.dicts.length → D[b]? = p.dicts[b]?

theorem objSolve_run (o : VarOps S) (p : PObj K S) :
    ∃ p', objSolve o p = (p', (p.toProb.solve o).map fun Q =>
        ⟨p'.vars, p'.info, (p'.sizes.getD (0, 0)).2, (p'.sizes.getD (0, 0)).1, p'.costHistory⟩) ∧ Solved o p p' ∧
      ∀ Q, p.toProb.solve o = .ok Q → p'.toProb = Q ∧
        (p.cfg.solver = "GN" ∨ p.cfg.solver = "LM" → p'.costHistory.isSome = true) ∧ Ready p' := by
  set p0 : PObj K S := { p with dicts := p.dicts ++ [p.varsInit], vars := p.dicts.length } with hp0
  have hd0 : p0.dict p0.vars = p.varsInit := by simp [PObj.dict, hp0]
  have hsolve : p.toProb.solve o = (({ p.toProb with vars := p.varsInit } : Prob K S).computeSize o >>= fun P1 =>
      if p.cfg.solver = "GN" then solveGN o P1 else if p.cfg.solver = "LM" then solveLM o P1 else .ok P1) := rfl
  have hcomp : ({ p.toProb with vars := p.varsInit } : Prob K S).computeSize o =
      (rowSlices p.varsInit p.residuals 0 >>= fun q => .ok { p.toProb with
        vars := p.varsInit
        varSlices := (colSlices o p.constKeys p.varsInit 0 p.varSlices).1
        resSlices := q.1
        sizeErr := q.2
        sizeState := (colSlices o p.constKeys p.varsInit 0 p.varSlices).2 }) := rfl
  unfold objSolve
  rw [pm_get]
  have halloc : objAlloc p.varsInit p = ({ p with dicts := p.dicts ++ [p.varsInit] }, .ok p.dicts.length) := rfl
  rw [pm_bind_ok halloc, pm_modify]
  have hp0' : ({ ({ p with dicts := p.dicts ++ [p.varsInit] } : PObj K S) with vars := p.dicts.length } : PObj K S) = p0 := rfl
  rw [hp0', hsolve, hcomp]
  rcases except_cases (rowSlices p.varsInit p.residuals 0) with ⟨⟨sl, m⟩, hrow⟩ | ⟨e, hrow⟩
  swap
  · obtain ⟨R, hR⟩ := objComputeSize_err (o := o) (p := p0) (e := e) (by rw [hd0]; exact hrow)
    rw [hrow, pm_bind_err hR]
    refine ⟨_, rfl, ⟨p.dicts ++ [p.varsInit], p.dicts.length, R, p.sizes, p.costHistory, p.info, ?_, le_refl _, by simp,
      fun b hb => by rw [List.getElem?_append_left hb]⟩, fun Q h => by cases h⟩
    rw [hd0]
  have hok := objComputeSize_ok (o := o) (p := p0) (sl := sl) (m := m) (by rw [hd0]; exact hrow)
  rw [hd0] at hok
  rw [hrow, pm_bind_ok hok, ok_bindE', ok_bindE']
  set p1 : PObj K S := { p0 with
    varSlices := (colSlices o p0.constKeys p.varsInit 0 p0.varSlices).1
    resSlices := sl.map some
    sizes := some (m, (colSlices o p0.constKeys p.varsInit 0 p0.varSlices).2) } with hp1
  have hr1 : Ready p1 := ⟨rfl, sl, rfl⟩
  have ho1 : Own p.dicts.length p1 := ⟨le_refl _, by simp [hp1, hp0]⟩
  have hP1 : p1.toProb = { p.toProb with
        vars := p.varsInit
        varSlices := (colSlices o p.constKeys p.varsInit 0 p.varSlices).1
        resSlices := sl
        sizeErr := m
        sizeState := (colSlices o p.constKeys p.varsInit 0 p.varSlices).2 } := by
    have e1 : p1.dict p1.vars = p.varsInit := hd0
    have e2 : p1.resSlices.filterMap id = sl := filterMap_some sl
    unfold PObj.toProb
    rw [e1, e2]
    rfl
  simp only
  rw [← hP1]
  have key : ∀ (mth : PM K S Unit) (f : Prob K S → Except Err (Prob K S)), SolverRun p.dicts.length mth f →
      ∃ p', (mth >>= fun _ => (PM.get : PM K S (PObj K S)) >>= fun p => (pure ⟨p.vars, p.info, (p.sizes.getD (0, 0)).2,
          (p.sizes.getD (0, 0)).1, p.costHistory⟩ : PM K S SolveResult)) p1 = (p', (f p1.toProb).map fun Q =>
          ⟨p'.vars, p'.info, (p'.sizes.getD (0, 0)).2, (p'.sizes.getD (0, 0)).1, p'.costHistory⟩) ∧ Solved o p p' ∧
        ∀ Q, f p1.toProb = .ok Q → p'.toProb = Q ∧
          (p.cfg.solver = "GN" ∨ p.cfg.solver = "LM" → p'.costHistory.isSome = true)  ∧ Ready p' := by
    intro mth f hm
    obtain ⟨p2, h2, hk, hq⟩ := hm p1 hr1 ho1
    have hready : Ready p2 := by
      obtain ⟨D, v, c, i, rfl, -, -, -, -⟩ := hk
      exact hr1
    have hsv : Solved o p p2 := by
      obtain ⟨D, v, c, i, rfl, hv1, hv2, hv3, hv4⟩ := hk
      refine ⟨D, v, sl.map some, some (m, (colSlices o p0.constKeys p.varsInit 0 p0.varSlices).2), c, i, rfl, hv1, hv2,
        fun b hb => ?_⟩
      rw [hv4 b hb]
      exact List.getElem?_append_left hb
    rcases except_cases (f p1.toProb) with ⟨Q, hQ⟩ | ⟨e, hQ⟩
    · rw [hQ] at h2
      rw [pm_bind_ok h2, pm_get, hQ]
      exact ⟨p2, rfl, hsv, fun Q' h => by cases h; exact ⟨(hq Q hQ).1, fun _ => (hq Q hQ).2, hready⟩⟩
    · rw [hQ] at h2
      rw [pm_bind_err h2, hQ]
      exact ⟨p2, rfl, hsv, fun Q' h => by cases h⟩
  by_cases hg : p.cfg.solver = "GN"
  · simp only [if_pos hg]
    exact key _ _ (objSolveGN_run o _)
  simp only [if_neg hg]
  by_cases hlm : p.cfg.solver = "LM"
  · simp only [if_pos hlm]
    exact key _ _ (objSolveLM_run o _)
  simp only [if_neg hlm]
  rw [pm_get]
  exact ⟨p1, rfl, ⟨p0.dicts, p0.vars, _, _, _, _, rfl, le_refl _, by simp [hp0],
    fun b hb => List.getElem?_append_left hb⟩, fun Q h => by
      cases h; exact ⟨rfl, fun hh => (hh.elim hg hlm).elim, hr1⟩⟩

end Verif
