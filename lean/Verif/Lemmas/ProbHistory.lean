import Verif.Lemmas.ProblemObj
import Verif.Props.Problem

/-!
`solve` depends only on the definition of the problem, provided the residuals leave out the Jacobians they are not asked
for.
-/

namespace Verif

open Matrix

set_option linter.unusedVariables false
set_option linter.unusedSectionVars false

variable {K S : Type} [DecidableEq K]

/-- A residual that returns no Jacobian for a variable that is held constant (`residuals.py:36-61`, the contract of
`compute_jacobians`). -/
def HonoursFlags (r : Residual K S) : Prop :=
  ∀ xs flags js, r.jacobians xs flags = .ok js → ∀ (i : ℕ) (J : DMat), js[i]? = some (some J) → flags[i]? ≠ some false

theorem placeJacs_congr {vs vs' : List (K × Slice)} {s : Slice} {w : ℝ} : ∀ (ks : List K) (js : List (Option DMat))
    (H : DMat), (∀ (i : ℕ) (k : K) (J : DMat), ks[i]? = some k → js[i]? = some (some J) → vs.lookup k = vs'.lookup k) →
    placeJacs vs s w ks js H = placeJacs vs' s w ks js H
  | [], js, H, _ => by cases js <;> rfl
  | _ :: _, [], _, _ => rfl
  | k :: ks, none :: js, H, h => by
    simp only [placeJacs]
    exact placeJacs_congr ks js H fun i k J h1 h2 => h (i + 1) k J h1 h2
  | k :: ks, some J :: js, H, h => by
    simp only [placeJacs, dictGet]
    rw [h 0 k J rfl rfl]
    rcases vs'.lookup k with _ | cs
    · rfl
    · simp only [ok_bindE']
      rcases except_cases (H.setBlock s cs (J.scale w)) with ⟨H', hH⟩ | ⟨e, hH⟩
      · rw [hH, ok_bindE', ok_bindE']
        exact placeJacs_congr ks js H' fun i k J h1 h2 => h (i + 1) k J h1 h2
      · rw [hH]; rfl

theorem correctStates_congr {o : VarOps S} {const : List K} {vs vs' : List (K × Slice)} {dx : List ℝ} :
    ∀ (vars : List (K × S)), (∀ k ∈ vars.map Prod.fst, k ∉ const → vs.lookup k = vs'.lookup k) →
    correctStates o const vs dx vars = correctStates o const vs' dx vars
  | [], _ => rfl
  | (k, x) :: l, h => by
    have ih := correctStates_congr (o := o) (const := const) (vs := vs) (vs' := vs') (dx := dx) l
      fun q hq => h q (by simp only [List.map_cons, List.mem_cons]; exact .inr hq)
    simp only [correctStates]
    by_cases hk : k ∈ const
    · rw [if_pos hk, if_pos hk, ih]
    · rw [if_neg hk, if_neg hk, ih]
      simp only [dictGet]
      rw [h k (by simp) hk]

theorem lookup_key {α : Type} {k : K} {x : α} : ∀ (d : List (K × α)), d.lookup k = some x → k ∈ d.map Prod.fst
  | [], h => by simp [List.lookup] at h
  | (q, y) :: l, h => by
    by_cases e : k = q
    · simp [e]
    · rw [lookup_cons_ne _ _ e] at h
      simp only [List.map_cons, List.mem_cons]
      exact .inr (lookup_key l h)

theorem lookupAll_keys {vars : List (K × S)} : ∀ {ks : List K} {xs : List S}, lookupAll vars ks = .ok xs →
    ∀ k ∈ ks, k ∈ vars.map Prod.fst
  | [], xs, h, k, hk => by cases hk
  | q :: ks, xs, h, k, hk => by
    unfold lookupAll at h
    obtain ⟨x, h1, h⟩ := bind_ok h
    obtain ⟨ys, h2, h⟩ := bind_ok h
    rcases List.mem_cons.1 hk with rfl | hk
    · exact lookup_key _ (dictGet_ok.1 h1)
    · exact lookupAll_keys h2 k hk

/-- The slices of the free variables do not depend on the dictionary they are written into. -/
theorem colSlices_agree {o : VarOps S} {const : List K} {k : K} : ∀ (l : List (K × S)) (idx : ℕ) (d d' : List (K × Slice)),
    (d.lookup k = d'.lookup k ∨ (k ∈ l.map Prod.fst ∧ k ∉ const)) →
    (colSlices o const l idx d).1.lookup k = (colSlices o const l idx d').1.lookup k
  | [], idx, d, d', h => by
    rcases h with h | ⟨h, -⟩
    · exact h
    · cases h
  | (q, x) :: l, idx, d, d', h => by
    simp only [colSlices]
    by_cases hq : q ∈ const
    · rw [if_pos hq, if_pos hq]
      refine colSlices_agree l idx d d' (h.imp id fun ⟨h1, h2⟩ => ⟨?_, h2⟩)
      rw [List.map_cons, List.mem_cons] at h1
      rcases h1 with rfl | h1
      · exact absurd hq h2
      · exact h1
    · rw [if_neg hq, if_neg hq]
      refine colSlices_agree l _ _ _ ?_
      rw [dictSet_get, dictSet_get]
      by_cases e : k = q
      · rw [if_pos e, if_pos e]; exact .inl rfl
      · rw [if_neg e, if_neg e]
        refine h.imp id fun ⟨h1, h2⟩ => ⟨?_, h2⟩
        rw [List.map_cons, List.mem_cons] at h1
        exact h1.resolve_left e

theorem colSlices_size {o : VarOps S} {const : List K} : ∀ (l : List (K × S)) (idx : ℕ) (d d' : List (K × Slice)),
    (colSlices o const l idx d).2 = (colSlices o const l idx d').2
  | [], idx, d, d' => rfl
  | (q, x) :: l, idx, d, d' => by
    simp only [colSlices]
    by_cases hq : q ∈ const
    · rw [if_pos hq, if_pos hq]; exact colSlices_size l _ _ _
    · rw [if_neg hq, if_neg hq]; exact colSlices_size l _ _ _

/-- Two problems whose sizes have been computed that differ at most in the slices of other than free variables, the
current values and the results of earlier calls. -/
structure SameStart (ks : List K) (P Q : Prob K S) : Prop where
  cfg : P.cfg = Q.cfg
  const : P.constKeys = Q.constKeys
  residuals : P.residuals = Q.residuals
  losses : P.losses = Q.losses
  resSlices : P.resSlices = Q.resSlices
  sizeErr : P.sizeErr = Q.sizeErr
  sizeState : P.sizeState = Q.sizeState
  slices : ∀ k ∈ ks, k ∉ Q.constKeys → P.varSlices.lookup k = Q.varSlices.lookup k
  honour : ∀ r ∈ Q.residuals, HonoursFlags r

theorem SameStart.linearize {ks : List K} {P Q : Prob K S} (h : SameStart ks P Q) (vars : List (K × S))
    (hk : vars.map Prod.fst = ks) : P.linearize vars = Q.linearize vars := by
  refine linearize_congr h.const h.resSlices h.sizeErr h.sizeState h.residuals h.losses vars
    fun r hr xs hx js hj rs w H => placeJacs_congr _ _ _ fun i k J hi hJ => ?_
  have hmem : k ∈ ks := by rw [← hk]; exact lookupAll_keys hx k (List.mem_of_getElem? hi)
  refine h.slices k hmem fun hc => ?_
  refine h.honour r hr xs _ js hj i J hJ ?_
  rw [List.getElem?_map, hi]
  simp [hc]

theorem SameStart.correct {ks : List K} {P Q : Prob K S} (h : SameStart ks P Q) (o : VarOps S) (dx : List ℝ)
    (vars : List (K × S)) (hk : vars.map Prod.fst = ks) :
    correctStates o P.constKeys P.varSlices dx vars = correctStates o Q.constKeys Q.varSlices dx vars := by
  rw [h.const]
  exact correctStates_congr vars fun k hkm hc => h.slices k (by rw [← hk]; exact hkm) hc

theorem SameStart.gnStep {ks : List K} {P Q : Prob K S} (h : SameStart ks P Q) (o : VarOps S) (s : LoopState K S)
    (hk : s.vars.map Prod.fst = ks) : gnStep o P s = gnStep o Q s := by
  unfold Verif.gnStep
  rw [h.cfg]
  split
  · rfl
  rcases except_cases (spsolve s.lin.A s.lin.b) with ⟨δ, hδ⟩ | ⟨e, hδ⟩
  swap
  · rw [hδ]; rfl
  rw [hδ, ok_bindE', ok_bindE', h.correct o _ _ hk]
  rcases except_cases (correctStates o Q.constKeys Q.varSlices (List.ofFn δ) s.vars) with ⟨v, hv⟩ | ⟨e, hv⟩
  swap
  · rw [hv]; rfl
  rw [hv, ok_bindE', ok_bindE', h.linearize v (by rw [correctStates_keys hv, hk])]

theorem SameStart.lmStep {ks : List K} {P Q : Prob K S} (h : SameStart ks P Q) (o : VarOps S) (s : LoopState K S)
    (hk : s.vars.map Prod.fst = ks) : lmStep o P s = lmStep o Q s := by
  unfold Verif.lmStep
  rw [h.cfg]
  rcases except_cases (spsolve (s.lin.A + s.mu • (1 : Mat s.lin.n s.lin.n)) s.lin.b) with ⟨δ, hδ⟩ | ⟨e, hδ⟩
  swap
  · rw [hδ]; rfl
  rw [hδ, ok_bindE', ok_bindE', h.correct o _ _ hk]
  split
  · rfl
  rcases except_cases (correctStates o Q.constKeys Q.varSlices (List.ofFn δ) s.vars) with ⟨v, hv⟩ | ⟨e, hv⟩
  swap
  · rw [hv]; rfl
  rw [hv, ok_bindE', ok_bindE', h.linearize v (by rw [correctStates_keys hv, hk])]

theorem gnStep_keys {o : VarOps S} {P : Prob K S} {s : LoopState K S} {r : LoopState K S × Bool}
    (h : gnStep o P s = .ok r) : r.1.vars.map Prod.fst = s.vars.map Prod.fst :=
  (gnStep_kept (v0 := s.vars) ⟨rfl, fun _ _ => rfl⟩ h).1

theorem lmStep_keys {o : VarOps S} {P : Prob K S} {s : LoopState K S} {r : LoopState K S × Bool}
    (h : lmStep o P s = .ok r) : r.1.vars.map Prod.fst = s.vars.map Prod.fst :=
  (lmStep_kept (v0 := s.vars) ⟨rfl, fun _ _ => rfl⟩ h).1

theorem iterLoop_congr {f g : LoopState K S → Except Err (LoopState K S × Bool)} {ks : List K}
    (hfg : ∀ s, s.vars.map Prod.fst = ks → f s = g s)
    (hg : ∀ s r, g s = .ok r → r.1.vars.map Prod.fst = s.vars.map Prod.fst) : ∀ (k : ℕ) (s : LoopState K S),
    s.vars.map Prod.fst = ks → iterLoop f k s = iterLoop g k s ∧
      ∀ r, iterLoop g k s = .ok r → r.vars.map Prod.fst = ks
  | 0, s, hs => ⟨rfl, fun r h => by cases h; exact hs⟩
  | k + 1, s, hs => by
    simp only [iterLoop]
    rw [hfg s hs]
    rcases except_cases (g s) with ⟨r, hr⟩ | ⟨e, hr⟩
    swap
    · rw [hr]; exact ⟨rfl, fun r h => by cases h⟩
    rw [hr, ok_bindE', ok_bindE']
    have hk := (hg s r hr).trans hs
    by_cases hb : r.2 = true
    · rw [if_pos hb, if_pos hb]; exact ⟨rfl, fun r' h => by cases h; exact hk⟩
    · rw [if_neg hb, if_neg hb]; exact iterLoop_congr hfg hg k r.1 hk

/-- What a successful `solve` reports. -/
def Prob.report (P : Prob K S) : List (K × S) × Option SqMat × ℕ × ℕ × List ℝ :=
  (P.vars, P.info, P.sizeState, P.sizeErr, P.costHistory)

theorem SameStart.solveGN {ks : List K} {P Q : Prob K S} (h : SameStart ks P Q) (o : VarOps S) (hv : P.vars = Q.vars)
    (hk : Q.vars.map Prod.fst = ks) : (solveGN o P).map Prob.report = (solveGN o Q).map Prob.report := by
  unfold Verif.solveGN
  rw [hv, h.linearize _ hk, h.cfg]
  rcases except_cases (Q.linearize Q.vars) with ⟨L, hL⟩ | ⟨e, hL⟩
  swap
  · rw [hL]; rfl
  rw [hL, ok_bindE', ok_bindE']
  obtain ⟨e1, e2⟩ := iterLoop_congr (fun s hs => h.gnStep o s hs) (fun s r hr => gnStep_keys hr) Q.cfg.maxIters
    ⟨Q.vars, L, [L.cost], none, none, 10, none, 0, 0⟩ hk
  rw [e1]
  rcases except_cases (iterLoop (Verif.gnStep o Q) Q.cfg.maxIters ⟨Q.vars, L, [L.cost], none, none, 10, none, 0, 0⟩)
    with ⟨s, hS⟩ | ⟨e, hS⟩
  swap
  · rw [hS]; rfl
  rw [hS, ok_bindE', ok_bindE', h.linearize _ (e2 s hS)]
  rcases except_cases (Q.linearize s.vars) with ⟨Lf, hLf⟩ | ⟨e, hLf⟩
  swap
  · rw [hLf]; rfl
  rw [hLf, ok_bindE', ok_bindE']
  rcases hi : s.info with _ | A
  · rfl
  · show Except.ok _ = Except.ok _
    simp only [Prob.report, h.sizeErr, h.sizeState]

theorem SameStart.solveLM {ks : List K} {P Q : Prob K S} (h : SameStart ks P Q) (o : VarOps S) (hv : P.vars = Q.vars)
    (hk : Q.vars.map Prod.fst = ks) : (solveLM o P).map Prob.report = (solveLM o Q).map Prob.report := by
  unfold Verif.solveLM
  rw [hv, h.linearize _ hk, h.cfg]
  rcases except_cases (Q.linearize Q.vars) with ⟨L, hL⟩ | ⟨e, hL⟩
  swap
  · rw [hL]; rfl
  rw [hL, ok_bindE', ok_bindE']
  rcases except_cases (npMax fun j => L.A j j) with ⟨mx, hmx⟩ | ⟨e, hmx⟩
  swap
  · rw [hmx]; rfl
  rw [hmx, ok_bindE', ok_bindE']
  obtain ⟨e1, e2⟩ := iterLoop_congr (fun s hs => h.lmStep o s hs) (fun s r hr => lmStep_keys hr) Q.cfg.maxIters
    ⟨Q.vars, L, [L.cost], none, none, 10, some ⟨_, L.A⟩, Q.cfg.tau * mx, 2⟩ hk
  rw [e1]
  rcases except_cases (iterLoop (Verif.lmStep o Q) Q.cfg.maxIters
    ⟨Q.vars, L, [L.cost], none, none, 10, some ⟨_, L.A⟩, Q.cfg.tau * mx, 2⟩) with ⟨s, hS⟩ | ⟨e, hS⟩
  swap
  · rw [hS]; rfl
  rw [hS, ok_bindE', ok_bindE', h.linearize _ (e2 s hS)]
  rcases except_cases (Q.linearize s.vars) with ⟨Lf, hLf⟩ | ⟨e, hLf⟩
  swap
  · rw [hLf]; rfl
  rw [hLf, ok_bindE', ok_bindE']
  show Except.ok _ = Except.ok _
  simp only [Prob.report, h.sizeErr, h.sizeState]

/-- Same settings, initial values, constant keys, residuals and losses. -/
structure SameDefn (P Q : Prob K S) : Prop where
  cfg : P.cfg = Q.cfg
  init : P.varsInit = Q.varsInit
  const : P.constKeys = Q.constKeys
  residuals : P.residuals = Q.residuals
  losses : P.losses = Q.losses

theorem solve_report {P Q : Prob K S} (h : SameDefn P Q) (o : VarOps S)
    (hs : Q.cfg.solver = "GN" ∨ Q.cfg.solver = "LM") (hon : ∀ r ∈ Q.residuals, HonoursFlags r) :
    (P.solve o).map Prob.report = (Q.solve o).map Prob.report := by
  unfold Prob.solve Prob.computeSize
  simp only
  rw [h.init, h.residuals]
  rcases except_cases (rowSlices Q.varsInit Q.residuals 0) with ⟨q, hq⟩ | ⟨e, hq⟩
  swap
  · rw [hq]; rfl
  rw [hq]
  have hS : SameStart (Q.varsInit.map Prod.fst)
      { P with
        varsInit := Q.varsInit
        residuals := Q.residuals
        vars := Q.varsInit
        varSlices := (colSlices o P.constKeys Q.varsInit 0 P.varSlices).1
        resSlices := q.1
        sizeErr := q.2
        sizeState := (colSlices o P.constKeys Q.varsInit 0 P.varSlices).2 }
      { Q with
        vars := Q.varsInit
        varSlices := (colSlices o Q.constKeys Q.varsInit 0 Q.varSlices).1
        resSlices := q.1
        sizeErr := q.2
        sizeState := (colSlices o Q.constKeys Q.varsInit 0 Q.varSlices).2 } := by
    refine ⟨h.cfg, h.const, rfl, h.losses, rfl, rfl, ?_, fun k hk hc => ?_, hon⟩
    · show (colSlices o P.constKeys Q.varsInit 0 P.varSlices).2 = (colSlices o Q.constKeys Q.varsInit 0 Q.varSlices).2
      rw [h.const]; exact colSlices_size _ _ _ _
    · show (colSlices o P.constKeys Q.varsInit 0 P.varSlices).1.lookup k =
        (colSlices o Q.constKeys Q.varsInit 0 Q.varSlices).1.lookup k
      rw [h.const]; exact colSlices_agree _ _ _ _ (.inr ⟨hk, hc⟩)
  rcases hs with hs | hs
  · have hs' : P.cfg.solver = "GN" := by rw [h.cfg]; exact hs
    simp only [hs, hs', if_true]
    show (Verif.solveGN o _).map _ = (Verif.solveGN o _).map _
    exact hS.solveGN o rfl rfl
  · have hs' : P.cfg.solver = "LM" := by rw [h.cfg]; exact hs
    simp only [hs, hs']
    show (Verif.solveLM o _).map _ = (Verif.solveLM o _).map _
    exact hS.solveLM o rfl rfl

end Verif
