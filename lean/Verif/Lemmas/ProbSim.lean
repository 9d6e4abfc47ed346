import Verif.Props.LinearProblem

/-!
Two `Problem`s whose variables correspond, with residuals that agree on corresponding variables, are solved alike by
Gauss-Newton.
-/

namespace Verif

set_option linter.unusedVariables false
set_option linter.unusedSectionVars false

open Matrix

variable {K S S' : Type} [DecidableEq K]

/-- Corresponding assignments. -/
def VarsRel (R : K → S → S' → Prop) (v : List (K × S)) (v' : List (K × S')) : Prop :=
  List.Forall₂ (fun p p' => p.1 = p'.1 ∧ R p.1 p.2 p'.2) v v'

/-- Corresponding values of a list of keys. -/
def StatesRel (R : K → S → S' → Prop) : List K → List S → List S' → Prop
  | [], [], [] => True
  | k :: ks, x :: xs, x' :: xs' => R k x x' ∧ StatesRel R ks xs xs'
  | _, _, _ => False

/-- Residuals that agree on corresponding variables. -/
structure ResRel (R : K → S → S' → Prop) (r : Residual K S) (r' : Residual K S') : Prop where
  keys : r.keys = r'.keys
  error : ∀ xs xs', StatesRel R r.keys xs xs' → r.error xs = r'.error xs'
  jacobians : ∀ xs xs' (fl : List Bool), StatesRel R r.keys xs xs' → fl.length = r.keys.length →
    r.jacobians xs fl = r'.jacobians xs' fl

/-- Operations that preserve the correspondence. -/
structure OpsRel (R : K → S → S' → Prop) (o : VarOps S) (o' : VarOps S') : Prop where
  dof : ∀ k x x', R k x x' → o.dof x = o'.dof x'
  plus : ∀ k x x' dx y, R k x x' → o.plus x dx = .ok y → ∃ y', o'.plus x' dx = .ok y' ∧ R k y y'

variable {R : K → S → S' → Prop}

theorem VarsRel.lookup : ∀ {v : List (K × S)} {v' : List (K × S')}, VarsRel R v v' → ∀ {k : K} {x : S},
    v.lookup k = some x → ∃ x', v'.lookup k = some x' ∧ R k x x'
  | _, _, .nil, k, x, h => by simp at h
  | (q, y) :: l, (q', y') :: l', .cons ⟨h1, h2⟩ ht, k, x, h => by
    simp only at h1 h2
    subst h1
    by_cases e : k = q
    · subst e
      rw [lookup_cons_self] at h ⊢
      cases h
      exact ⟨y', rfl, h2⟩
    · rw [lookup_cons_ne _ _ e] at h ⊢
      exact VarsRel.lookup ht h

theorem lookupAll_sim {v : List (K × S)} {v' : List (K × S')} (hv : VarsRel R v v') : ∀ {ks : List K} {xs : List S},
    lookupAll v ks = .ok xs → ∃ xs', lookupAll v' ks = .ok xs' ∧ StatesRel R ks xs xs'
  | [], xs, h => by cases h; exact ⟨[], rfl, trivial⟩
  | k :: ks, xs, h => by
    unfold lookupAll at h
    obtain ⟨x, h1, h⟩ := bind_ok h
    obtain ⟨xs0, h2, h⟩ := bind_ok h
    cases h
    obtain ⟨x', g1, g2⟩ := hv.lookup (dictGet_ok.1 h1)
    obtain ⟨xs', g3, g4⟩ := lookupAll_sim hv h2
    refine ⟨x' :: xs', ?_, g2, g4⟩
    unfold lookupAll
    rw [dictGet_ok.2 g1]
    show (lookupAll v' ks >>= _) = _
    rw [g3]
    rfl

theorem rowSlices_sim {v : List (K × S)} {v' : List (K × S')} (hv : VarsRel R v v') :
    ∀ {rs : List (Residual K S)} {rs' : List (Residual K S')} {i : ℕ} {t : List Slice × ℕ},
      List.Forall₂ (ResRel R) rs rs' → rowSlices v rs i = .ok t → rowSlices v' rs' i = .ok t
  | [], _, i, t, .nil, h => by cases h; rfl
  | r :: rs, r' :: rs', i, t, .cons hr hrs, h => by
    unfold rowSlices at h
    obtain ⟨xs, h1, h⟩ := bind_ok h
    obtain ⟨e, h2, h⟩ := bind_ok h
    obtain ⟨⟨sl, tot⟩, h3, h⟩ := bind_ok h
    obtain ⟨xs', g1, g2⟩ := lookupAll_sim hv h1
    unfold rowSlices
    rw [hr.keys] at g1
    rw [g1]
    show (r'.error xs' >>= _) = _
    rw [← hr.error xs xs' g2, h2]
    show (rowSlices v' rs' (i + e.length) >>= _) = _
    rw [rowSlices_sim hv hrs h3]
    exact h

theorem colSlices_sim {o : VarOps S} {o' : VarOps S'} (ho : OpsRel R o o') {const : List K} :
    ∀ {v : List (K × S)} {v' : List (K × S')} (i : ℕ) (d : List (K × Slice)), VarsRel R v v' →
      colSlices o const v i d = colSlices o' const v' i d
  | _, _, i, d, .nil => rfl
  | (k, x) :: v, (k', x') :: v', i, d, .cons ⟨h1, h2⟩ ht => by
    simp only at h1 h2
    subst h1
    unfold colSlices
    rw [ho.dof k x x' h2, colSlices_sim ho _ _ ht, colSlices_sim ho _ _ ht]

theorem correctStates_sim {o : VarOps S} {o' : VarOps S'} (ho : OpsRel R o o') {const : List K}
    {sl : List (K × Slice)} {dx : List ℝ} : ∀ {v w : List (K × S)} {v' : List (K × S')}, VarsRel R v v' →
      correctStates o const sl dx v = .ok w → ∃ w', correctStates o' const sl dx v' = .ok w' ∧ VarsRel R w w'
  | _, w, _, .nil, h => by cases h; exact ⟨[], rfl, .nil⟩
  | (k, x) :: v, w, (k', x') :: v', .cons ⟨h1, h2⟩ ht, h => by
    simp only at h1 h2
    subst h1
    unfold correctStates at h
    by_cases hk : k ∈ const
    · rw [if_pos hk] at h
      obtain ⟨l, h3, h⟩ := bind_ok h
      cases h
      obtain ⟨w', g1, g2⟩ := correctStates_sim ho ht h3
      refine ⟨(k, x') :: w', ?_, .cons ⟨rfl, h2⟩ g2⟩
      unfold correctStates
      rw [if_pos hk, g1]
      rfl
    · rw [if_neg hk] at h
      obtain ⟨s, h3, h⟩ := bind_ok h
      obtain ⟨y, h4, h⟩ := bind_ok h
      obtain ⟨l, h5, h⟩ := bind_ok h
      cases h
      obtain ⟨y', g1, g2⟩ := ho.plus k x x' _ y h2 h4
      obtain ⟨w', g3, g4⟩ := correctStates_sim ho ht h5
      refine ⟨(k, y') :: w', ?_, .cons ⟨rfl, g2⟩ g4⟩
      unfold correctStates
      rw [if_neg hk, h3]
      show (o'.plus x' _ >>= _) = _
      rw [g1]
      show (correctStates o' const sl dx v' >>= _) = _
      rw [g3]
      rfl

/-- Corresponding problems. -/
structure ProbRel (R : K → S → S' → Prop) (P : Prob K S) (P' : Prob K S') : Prop where
  cfg : P.cfg = P'.cfg
  varsInit : VarsRel R P.varsInit P'.varsInit
  constKeys : P.constKeys = P'.constKeys
  residuals : List.Forall₂ (ResRel R) P.residuals P'.residuals
  losses : P.losses = P'.losses
  vars : VarsRel R P.vars P'.vars
  varSlices : P.varSlices = P'.varSlices
  resSlices : P.resSlices = P'.resSlices
  sizeErr : P.sizeErr = P'.sizeErr
  sizeState : P.sizeState = P'.sizeState
  info : P.info = P'.info
  cov : P.cov = P'.cov

theorem asmLoop_sim {P : Prob K S} {P' : Prob K S'} (hP : ProbRel R P P') {v : List (K × S)} {v' : List (K × S')}
    (hv : VarsRel R v v') : ∀ {rs : List (Residual K S)} {rs' : List (Residual K S')} {ls : List Loss} {i : ℕ}
      {a b : Asm}, List.Forall₂ (ResRel R) rs rs' → asmLoop P v i (rs.zip ls) a = .ok b →
      asmLoop P' v' i (rs'.zip ls) a = .ok b
  | [], _, ls, i, a, b, .nil, h => by simpa [asmLoop] using h
  | r :: rs, r' :: rs', [], i, a, b, .cons hr hrs, h => by simpa [asmLoop] using h
  | r :: rs, r' :: rs', l :: ls, i, a, b, .cons hr hrs, h => by
    rw [List.zip_cons_cons] at h ⊢
    unfold asmLoop at h
    obtain ⟨xs, h1, h⟩ := bind_ok h
    obtain ⟨err, h2, h⟩ := bind_ok h
    obtain ⟨jacs, h3, h⟩ := bind_ok h
    obtain ⟨s, h4, h⟩ := bind_ok h
    obtain ⟨e', h5, h⟩ := bind_ok h
    obtain ⟨H', h6, h⟩ := bind_ok h
    obtain ⟨xs', g1, g2⟩ := lookupAll_sim hv h1
    rw [hr.error xs xs' g2] at h2
    rw [hr.jacobians xs xs' _ g2 (by simp)] at h3
    rw [hr.keys] at g1 h3 h6
    rw [hP.constKeys] at h3
    rw [hP.resSlices] at h4
    rw [hP.sizeErr] at h5
    rw [hP.varSlices] at h6
    unfold asmLoop
    rw [g1]
    show (r'.error xs' >>= _) = _
    rw [h2]
    show (r'.jacobians xs' _ >>= _) = _
    rw [h3]
    show (pyGet P'.resSlices i >>= _) = _
    rw [h4]
    show (setSeg _ _ _ _ >>= _) = _
    rw [h5]
    show (placeJacs _ _ _ _ _ _ >>= _) = _
    rw [h6]
    exact asmLoop_sim hP hv hrs h

theorem linearize_sim {P : Prob K S} {P' : Prob K S'} (hP : ProbRel R P P') {v : List (K × S)} {v' : List (K × S')}
    (hv : VarsRel R v v') {L : Lin} (h : P.linearize v = .ok L) : P'.linearize v' = .ok L := by
  unfold Prob.linearize at h ⊢
  obtain ⟨a, h1, h⟩ := bind_ok h
  rw [hP.losses, hP.sizeErr, hP.sizeState] at h1
  rw [asmLoop_sim hP hv hP.residuals h1]
  rw [hP.sizeErr, hP.sizeState] at h
  exact h

/-- Corresponding loop states: everything but the variables is equal. -/
structure LoopRel (R : K → S → S' → Prop) (s : LoopState K S) (s' : LoopState K S') : Prop where
  vars : VarsRel R s.vars s'.vars
  lin : s.lin = s'.lin
  costs : s.costs = s'.costs
  deltaCost : s.deltaCost = s'.deltaCost
  gradNorm : s.gradNorm = s'.gradNorm
  dx : s.dx = s'.dx
  info : s.info = s'.info

theorem gnStep_sim {o : VarOps S} {o' : VarOps S'} (ho : OpsRel R o o') {P : Prob K S} {P' : Prob K S'}
    (hP : ProbRel R P P') {s t : LoopState K S} {b : Bool} {s' : LoopState K S'} (hs : LoopRel R s s')
    (h : gnStep o P s = .ok (t, b)) : ∃ t', gnStep o' P' s' = .ok (t', b) ∧ LoopRel R t t' := by
  obtain ⟨sv, slin, sc, sd, sg, sx, si, smu, snu⟩ := s
  obtain ⟨sv', slin', sc', sd', sg', sx', si', smu', snu'⟩ := s'
  obtain ⟨h1, h2, h3, h4, h5, h6, h7⟩ := hs
  simp only at h1 h2 h3 h4 h5 h6 h7
  subst h2 h3 h4 h5 h6 h7
  unfold gnStep at h ⊢
  simp only at h ⊢
  rw [hP.cfg] at h
  split
  · rename_i hc
    rw [if_pos hc] at h
    cases h
    exact ⟨_, rfl, h1, rfl, rfl, rfl, rfl, rfl, rfl⟩
  · rename_i hc
    rw [if_neg hc] at h
    obtain ⟨δ, g1, h⟩ := bind_ok h
    obtain ⟨w, g2, h⟩ := bind_ok h
    obtain ⟨L', g3, h⟩ := bind_ok h
    obtain ⟨g, g4, h⟩ := bind_ok h
    cases h
    rw [hP.constKeys, hP.varSlices] at g2
    obtain ⟨w', g5, g6⟩ := correctStates_sim ho h1 g2
    refine ⟨⟨w', L', L'.cost :: sc, deltaCostOf (L'.cost :: sc) sd, some g, vecNorm δ, some ⟨slin.n, slin.A⟩, smu',
      snu'⟩, ?_, ?_⟩
    · rw [g1]
      show (correctStates _ _ _ _ _ >>= _) = _
      rw [g5]
      show (P'.linearize w' >>= _) = _
      rw [linearize_sim hP g6 g3]
      show (L'.gradNorm >>= _) = _
      rw [g4]
      rfl
    · exact ⟨g6, rfl, rfl, rfl, rfl, rfl, rfl⟩

theorem iterLoop_sim {o : VarOps S} {o' : VarOps S'} (ho : OpsRel R o o') {P : Prob K S} {P' : Prob K S'}
    (hP : ProbRel R P P') : ∀ (k : ℕ) {s t : LoopState K S} {s' : LoopState K S'}, LoopRel R s s' →
      iterLoop (gnStep o P) k s = .ok t → ∃ t', iterLoop (gnStep o' P') k s' = .ok t' ∧ LoopRel R t t'
  | 0, s, t, s', hs, h => by cases h; exact ⟨s', rfl, hs⟩
  | k + 1, s, t, s', hs, h => by
    unfold iterLoop at h
    obtain ⟨⟨r, b⟩, h1, h⟩ := bind_ok h
    obtain ⟨r', g1, g2⟩ := gnStep_sim ho hP hs h1
    cases b with
    | true =>
      cases h
      refine ⟨r', ?_, g2⟩
      unfold iterLoop
      rw [g1]
      rfl
    | false =>
      obtain ⟨t', g3, g4⟩ := iterLoop_sim ho hP k g2 h
      refine ⟨t', ?_, g4⟩
      unfold iterLoop
      rw [g1]
      exact g3

theorem started_sim {o : VarOps S} {o' : VarOps S'} (ho : OpsRel R o o') {P P1 : Prob K S} {P' : Prob K S'}
    (hP : ProbRel R P P') (h : P.started o = .ok P1) : ∃ P1', P'.started o' = .ok P1' ∧ ProbRel R P1 P1' := by
  unfold Prob.started Prob.computeSize at h ⊢
  obtain ⟨⟨rs, m⟩, h1, h⟩ := bind_ok h
  have g1 := rowSlices_sim hP.varsInit hP.residuals h1
  have g2 := colSlices_sim ho (const := P.constKeys) 0 P.varSlices hP.varsInit
  cases h
  refine ⟨{ P' with vars := P'.varsInit, varSlices := (colSlices o' P'.constKeys P'.varsInit 0 P'.varSlices).1, resSlices := rs, sizeErr := m, sizeState := (colSlices o' P'.constKeys P'.varsInit 0 P'.varSlices).2 }, ?_, ?_⟩
  · show (rowSlices P'.varsInit P'.residuals 0 >>= _) = _
    rw [g1]
    rfl
  · refine ⟨hP.cfg, hP.varsInit, hP.constKeys, hP.residuals, hP.losses, hP.varsInit, ?_, rfl, rfl, ?_, hP.info, hP.cov⟩
    · show (colSlices o P.constKeys P.varsInit 0 P.varSlices).1 = (colSlices o' P'.constKeys P'.varsInit 0 P'.varSlices).1
      rw [g2, hP.constKeys, hP.varSlices]
    · show (colSlices o P.constKeys P.varsInit 0 P.varSlices).2 = (colSlices o' P'.constKeys P'.varsInit 0 P'.varSlices).2
      rw [g2, hP.constKeys, hP.varSlices]

/-- Corresponding problems have corresponding Gauss-Newton solutions. -/
theorem solve_sim {o : VarOps S} {o' : VarOps S'} (ho : OpsRel R o o') {P Q : Prob K S} {P' : Prob K S'}
    (hP : ProbRel R P P') (hs : P.cfg.solver = "GN") (h : P.solve o = .ok Q) :
    ∃ Q', P'.solve o' = .ok Q' ∧ ProbRel R Q Q' := by
  obtain ⟨P1, h1, h2⟩ := solve_GN hs h
  obtain ⟨P1', g1, g2⟩ := started_sim ho hP h1
  unfold solveGN at h2
  obtain ⟨L, h3, h2⟩ := bind_ok h2
  obtain ⟨s, h4, h2⟩ := bind_ok h2
  obtain ⟨Lf, h5, h2⟩ := bind_ok h2
  have k1 := linearize_sim g2 g2.vars h3
  rw [g2.cfg] at h4
  obtain ⟨s', k2, k3⟩ := iterLoop_sim ho g2 _ (s' := ⟨P1'.vars, L, [L.cost], none, none, 10, none, 0, 0⟩)
    ⟨g2.vars, rfl, rfl, rfl, rfl, rfl, rfl⟩ h4
  have k4 := linearize_sim g2 k3.vars h5
  have e : P'.solve o' = solveGN o' P1' := by
    unfold Prob.solve
    have : (({ P' with vars := P'.varsInit } : Prob K S').computeSize o') = .ok P1' := g1
    rw [this]
    show (if P'.cfg.solver = "GN" then _ else _) = _
    rw [if_pos (by rw [← hP.cfg]; exact hs)]
  cases hi : s.info with
  | none => rw [hi] at h2; cases h2
  | some A =>
    rw [hi] at h2
    cases h2
    refine ⟨{ P1' with vars := s'.vars, costHistory := (Lf.cost :: s'.costs).reverse, info := some A }, ?_, ?_⟩
    · rw [e]
      unfold solveGN
      rw [k1]
      show (iterLoop _ _ _ >>= _) = _
      rw [k2]
      show (P1'.linearize s'.vars >>= _) = _
      rw [k4]
      have : s'.info = some A := by rw [← k3.info]; exact hi
      simp only [this, bind, Except.bind]
    · exact ⟨g2.cfg, g2.varsInit, g2.constKeys, g2.residuals, g2.losses, k3.vars, g2.varSlices, g2.resSlices,
        g2.sizeErr, g2.sizeState, rfl, g2.cov⟩

end Verif
