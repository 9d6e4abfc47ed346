import Verif.Lemmas.Problem
import Mathlib.Analysis.SpecialFunctions.Log.Deriv
import Mathlib.Analysis.SpecialFunctions.Pow.Deriv

/-!
Property theorems about `navlie/batch/problem.py` and `losses.py` (C35 - C42).
-/

namespace Verif

set_option linter.unusedVariables false
set_option linter.unusedSectionVars false

open Matrix

variable {K S : Type} [DecidableEq K]

/-! ### C35 -/

/-- What `solve` does before calling the solver: variables from the initial ones, slices computed. -/
def Prob.started (o : VarOps S) (P : Prob K S) : Except Err (Prob K S) :=
  ({ P with vars := P.varsInit } : Prob K S).computeSize o

/-- Loop states reachable by the LM solver from a given one. -/
inductive LmReach (o : VarOps S) (P : Prob K S) (s0 : LoopState K S) : LoopState K S → Prop where
  | start : LmReach o P s0 s0
  | next {s r} : LmReach o P s0 s → lmStep o P s = .ok r → LmReach o P s0 r.1

/-- The initial loop state of the LM solver on a started problem. -/
noncomputable def lmStart (P : Prob K S) (L : Lin) (mx : ℝ) : LoopState K S :=
  ⟨P.vars, L, [L.cost], none, none, 10, some ⟨_, L.A⟩, P.cfg.tau * mx, 2⟩

theorem diag_nonneg (L : Lin) (j : Fin L.n) : 0 ≤ L.A j j := by
  show 0 ≤ ∑ i, L.H i j * L.H i j
  exact Finset.sum_nonneg fun i _ => mul_self_nonneg _

theorem lmStart_inv {P : Prob K S} {L : Lin} {mx : ℝ} (hL : P.linearize P.vars = .ok L)
    (hmx : npMax (fun j => L.A j j) = .ok mx) (htau : 0 ≤ P.cfg.tau) : LmInv P (lmStart P L mx) where
  lin := hL
  head := rfl
  sorted := List.pairwise_singleton _ _
  mu := by
    obtain ⟨i, hi⟩ := (npMax_ok hmx).2
    show 0 ≤ P.cfg.tau * mx
    rw [← hi]
    exact mul_nonneg htau (diag_nonneg L i)
  nu := le_refl _
  info := rfl

theorem lmReach_inv {o : VarOps S} {P : Prob K S} {s0 s : LoopState K S} (h0 : LmInv P s0)
    (h : LmReach o P s0 s) : LmInv P s := by
  induction h with
  | start => exact h0
  | next _ hst ih => exact (lmStep_cases ih hst).1

theorem iterLoop_reach {o : VarOps S} {P : Prob K S} : ∀ (k : ℕ) (s0 s s' : LoopState K S), LmReach o P s0 s →
    iterLoop (lmStep o P) k s = .ok s' → LmReach o P s0 s'
  | 0, s0, s, s', h, e => by cases e; exact h
  | k + 1, s0, s, s', h, e => by
    unfold iterLoop at e
    obtain ⟨r, h1, e⟩ := bind_ok e
    split at e
    · cases e; exact .next h h1
    · exact iterLoop_reach k s0 r.1 s' (.next h h1) e

theorem solveLM_ok {o : VarOps S} {P P' : Prob K S} (h : solveLM o P = .ok P') :
    ∃ L mx s, P.linearize P.vars = .ok L ∧ npMax (fun j => L.A j j) = .ok mx ∧
      iterLoop (lmStep o P) P.cfg.maxIters (lmStart P L mx) = .ok s ∧
      LmReach o P (lmStart P L mx) s ∧
      ∃ Lf, P.linearize s.vars = .ok Lf ∧
      P' = { P with vars := s.vars, costHistory := (Lf.cost :: s.costs).reverse, info := s.info } := by
  unfold solveLM at h
  obtain ⟨L, h1, h⟩ := bind_ok h
  obtain ⟨mx, h2, h⟩ := bind_ok h
  obtain ⟨s, h3, h⟩ := bind_ok h
  obtain ⟨Lf, h4, h⟩ := bind_ok h
  cases h
  exact ⟨L, mx, s, h1, h2, h3, iterLoop_reach _ _ _ _ .start h3, Lf, h4, rfl⟩

theorem solve_LM {o : VarOps S} {P P' : Prob K S} (hs : P.cfg.solver = "LM") (h : P.solve o = .ok P') :
    ∃ P1, P.started o = .ok P1 ∧ solveLM o P1 = .ok P' := by
  unfold Prob.solve at h
  obtain ⟨P1, h1, h⟩ := bind_ok h
  rw [hs, if_neg (by decide), if_pos rfl] at h
  exact ⟨P1, h1, h⟩

theorem solve_GN {o : VarOps S} {P P' : Prob K S} (hs : P.cfg.solver = "GN") (h : P.solve o = .ok P') :
    ∃ P1, P.started o = .ok P1 ∧ solveGN o P1 = .ok P' := by
  unfold Prob.solve at h
  obtain ⟨P1, h1, h⟩ := bind_ok h
  rw [hs, if_pos rfl] at h
  exact ⟨P1, h1, h⟩

theorem computeSize_fields {o : VarOps S} {P P1 : Prob K S} (h : P.computeSize o = .ok P1) :
    P1.cfg = P.cfg ∧ P1.varsInit = P.varsInit ∧ P1.constKeys = P.constKeys ∧ P1.residuals = P.residuals ∧
    P1.losses = P.losses ∧ P1.vars = P.vars ∧ P1.info = P.info ∧ P1.cov = P.cov ∧
    P1.varSlices = (colSlices o P.constKeys P.vars 0 P.varSlices).1 := by
  unfold Prob.computeSize at h
  obtain ⟨r, h1, h⟩ := bind_ok h
  cases h
  exact ⟨rfl, rfl, rfl, rfl, rfl, rfl, rfl, rfl, rfl⟩

theorem started_fields {o : VarOps S} {P P1 : Prob K S} (h : P.started o = .ok P1) :
    P1.cfg = P.cfg ∧ P1.varsInit = P.varsInit ∧ P1.constKeys = P.constKeys ∧ P1.residuals = P.residuals ∧
    P1.losses = P.losses ∧ P1.vars = P.varsInit ∧ P1.info = P.info ∧ P1.cov = P.cov :=
  let ⟨a, b, c, d, e, f, g, i, _⟩ := computeSize_fields h
  ⟨a, b, c, d, e, f, g, i⟩

/-- **C35.** Whatever the residuals, losses, Jacobians and the number of iterations: the total cost at the variables
returned by `solve` with LM is at most the total cost at the initial variables. -/
theorem C35_lm_never_worse (o : VarOps S) (P P' : Prob K S) (hs : P.cfg.solver = "LM") (htau : 0 ≤ P.cfg.tau)
    (h : P.solve o = .ok P') :
    ∃ c0 cf, totalCost P.varsInit (P.residuals.zip P.losses) = .ok c0 ∧
      totalCost P'.vars (P.residuals.zip P.losses) = .ok cf ∧ cf ≤ c0 ∧
      (cf < c0 ∨ P'.vars = P.varsInit) := by
  obtain ⟨P1, hP1, h⟩ := solve_LM hs h
  obtain ⟨e1, e2, e3, e4, e5, e6, -, -⟩ := started_fields hP1
  obtain ⟨L, mx, s, h1, h2, h3, hr, Lf, h4, rfl⟩ := solveLM_ok h
  have hinv0 : LmInv P1 (lmStart P1 L mx) := lmStart_inv h1 h2 (by rw [e1]; exact htau)
  have hinv := lmReach_inv hinv0 hr
  refine ⟨L.cost, s.lin.cost, ?_, ?_, ?_⟩
  · have := linearize_cost h1
    rwa [e4, e5, e6] at this
  · have := linearize_cost hinv.lin
    rwa [e4, e5] at this
  · have key : (s.lin.cost < L.cost) ∨ (s.vars = P1.vars ∧ s.lin.cost = L.cost) := by
      rename_i hsolve
      clear h4 h3 h hinv hsolve
      induction hr with
      | start => exact Or.inr ⟨rfl, rfl⟩
      | @next s' r hs' hst ih =>
        rcases (lmStep_cases (lmReach_inv hinv0 hs') hst).2 with ⟨a, b, -⟩ | ⟨a, -⟩
        · rcases ih with ih | ⟨i1, i2⟩
          · exact Or.inl (by rw [b]; exact ih)
          · exact Or.inr ⟨a.trans i1, by rw [b]; exact i2⟩
        · rcases ih with ih | ⟨i1, i2⟩
          · exact Or.inl (a.trans ih)
          · exact Or.inl (by rw [← i2]; exact a)
    rcases key with k | ⟨k1, k2⟩
    · exact ⟨k.le, Or.inl k⟩
    · exact ⟨k2.le, Or.inr (by show s.vars = _; rw [k1, e6])⟩

/-- **C35.** Every pass of the LM loop, from every reachable loop state: either the variables are exactly those
before the pass (rejected, or finished), or the total cost is strictly smaller than before. -/
theorem C35_lm_step (o : VarOps S) (P : Prob K S) (L : Lin) (mx : ℝ) (hL : P.linearize P.vars = .ok L)
    (hmx : npMax (fun j => L.A j j) = .ok mx) (htau : 0 ≤ P.cfg.tau) (s : LoopState K S)
    (hr : LmReach o P (lmStart P L mx) s) (r : LoopState K S × Bool) (hst : lmStep o P s = .ok r) :
    r.1.vars = s.vars ∨
    ∃ c c', totalCost s.vars (P.residuals.zip P.losses) = .ok c ∧
      totalCost r.1.vars (P.residuals.zip P.losses) = .ok c' ∧ c' < c := by
  have hinv := lmReach_inv (lmStart_inv hL hmx htau) hr
  obtain ⟨hinv', hc⟩ := lmStep_cases hinv hst
  rcases hc with ⟨a, -⟩ | ⟨a, -⟩
  · exact Or.inl a
  · exact Or.inr ⟨_, _, linearize_cost hinv.lin, linearize_cost hinv'.lin, a⟩

/-- **C35.** The damping parameter stays positive in every reachable loop state, unless the initial Jacobian is
zero (and then the first linear system is singular). -/
theorem C35_damping_positive (o : VarOps S) (P : Prob K S) (L : Lin) (mx : ℝ)
    (hL : P.linearize P.vars = .ok L) (hmx : npMax (fun j => L.A j j) = .ok mx) (htau : 0 < P.cfg.tau)
    (hH : L.H ≠ 0) (s : LoopState K S) (hr : LmReach o P (lmStart P L mx) s) :
    0 < s.mu ∧ 2 ≤ s.nu := by
  have hinv0 := lmStart_inv hL hmx htau.le
  have h0 : 0 < (lmStart P L mx).mu := by
    show 0 < P.cfg.tau * mx
    apply mul_pos htau
    have : ∃ i j, L.H i j ≠ 0 := by
      by_contra hc
      push Not at hc
      exact hH (by ext i j; exact hc i j)
    obtain ⟨i, j, hij⟩ := this
    refine lt_of_lt_of_le ?_ ((npMax_ok hmx).1 j)
    show 0 < ∑ k, L.H k j * L.H k j
    exact Finset.sum_pos' (fun k _ => mul_self_nonneg _) ⟨i, Finset.mem_univ _, mul_self_pos.2 hij⟩
  refine ⟨?_, (lmReach_inv hinv0 hr).nu⟩
  induction hr with
  | start => exact h0
  | next hs' hst ih =>
    rcases (lmStep_cases (lmReach_inv hinv0 hs') hst).2 with ⟨-, -, -, -, k⟩ | ⟨-, -, k⟩
    · exact k ih
    · exact k ih

/-- **C35.** The reported cost history (its last entry repeats the final cost) is strictly decreasing. -/
theorem C35_history (o : VarOps S) (P P' : Prob K S) (hs : P.cfg.solver = "LM") (htau : 0 ≤ P.cfg.tau)
    (h : P.solve o = .ok P') :
    ∃ cs cf, P'.costHistory = cs ++ [cf] ∧ cs.getLast? = some cf ∧ cs.Pairwise (· > ·) ∧
      totalCost P'.vars (P.residuals.zip P.losses) = .ok cf := by
  obtain ⟨P1, hP1, h⟩ := solve_LM hs h
  obtain ⟨e1, e2, e3, e4, e5, e6, -, -⟩ := started_fields hP1
  obtain ⟨L, mx, s, h1, h2, h3, hr, Lf, h4, rfl⟩ := solveLM_ok h
  have hinv := lmReach_inv (lmStart_inv h1 h2 (by rw [e1]; exact htau)) hr
  have hf : Lf = s.lin := by
    have := hinv.lin
    rw [h4] at this
    exact Except.ok.inj this
  refine ⟨s.costs.reverse, Lf.cost, by simp, ?_, ?_, ?_⟩
  · rw [List.getLast?_reverse, hinv.head, hf]
  · rw [List.pairwise_reverse]; exact hinv.sorted
  · have := linearize_cost h4
    rwa [e4, e5] at this

/-! ### C36 -/

/-- What every solver loop keeps: the keys, and the values of the constant variables. -/
def VarsKept (const : List K) (v0 v : List (K × S)) : Prop :=
  v.map Prod.fst = v0.map Prod.fst ∧ ∀ k ∈ const, v.lookup k = v0.lookup k

theorem VarsKept.trans_correct {o : VarOps S} {const : List K} {sl : List (K × Slice)} {dx : List ℝ}
    {v0 v v' : List (K × S)} (h : VarsKept const v0 v) (hc : correctStates o const sl dx v = .ok v') :
    VarsKept const v0 v' :=
  ⟨(correctStates_keys hc).trans h.1, fun k hk => (correctStates_const hk hc).trans (h.2 k hk)⟩

theorem gnStep_kept {o : VarOps S} {P : Prob K S} {v0 : List (K × S)} {s : LoopState K S}
    {r : LoopState K S × Bool} (hs : VarsKept P.constKeys v0 s.vars) (h : gnStep o P s = .ok r) :
    VarsKept P.constKeys v0 r.1.vars := by
  unfold gnStep at h
  split at h
  · cases h; exact hs
  · obtain ⟨δ, h1, h⟩ := bind_ok h
    obtain ⟨v, h2, h⟩ := bind_ok h
    obtain ⟨L', h3, h⟩ := bind_ok h
    obtain ⟨g, h4, h⟩ := bind_ok h
    cases h
    exact hs.trans_correct h2

theorem lmStep_kept {o : VarOps S} {P : Prob K S} {v0 : List (K × S)} {s : LoopState K S}
    {r : LoopState K S × Bool} (hs : VarsKept P.constKeys v0 s.vars) (h : lmStep o P s = .ok r) :
    VarsKept P.constKeys v0 r.1.vars := by
  unfold lmStep at h
  obtain ⟨δ, h1, h⟩ := bind_ok h
  split at h
  · cases h; exact hs
  · obtain ⟨v, h2, h⟩ := bind_ok h
    obtain ⟨L', h3, h⟩ := bind_ok h
    obtain ⟨g, h4, h⟩ := bind_ok h
    cases h
    show VarsKept _ _ (lmUpdate s _ v L' _ g).vars
    unfold lmUpdate
    simp only []
    split
    · exact hs.trans_correct h2
    · exact hs

/-- **C36.** After `solve` with any solver setting and any number of iterations: the initial variables are the ones
the user gave, the result has the same keys, and every constant variable has exactly its initial value. -/
theorem C36_constant (o : VarOps S) (P P' : Prob K S) (h : P.solve o = .ok P') :
    P'.varsInit = P.varsInit ∧ P'.vars.map Prod.fst = P.varsInit.map Prod.fst ∧
    ∀ k ∈ P.constKeys, P'.vars.lookup k = P.varsInit.lookup k := by
  unfold Prob.solve at h
  obtain ⟨P1, h1, h⟩ := bind_ok h
  obtain ⟨e1, e2, e3, e4, e5, e6, -, -⟩ := started_fields h1
  have hk0 : VarsKept P1.constKeys P1.vars P1.vars := ⟨rfl, fun _ _ => rfl⟩
  split at h
  · unfold solveGN at h
    obtain ⟨L, h2, h⟩ := bind_ok h
    obtain ⟨s, h3, h⟩ := bind_ok h
    obtain ⟨Lf, h4, h⟩ := bind_ok h
    have hk : VarsKept P1.constKeys P1.vars s.vars :=
      iterLoop_inv (fun s => VarsKept P1.constKeys P1.vars s.vars) (fun s r hs hr => gnStep_kept hs hr) _ _ _ hk0 h3
    rw [e3, e6] at hk
    split at h
    · cases h
    · cases h
      exact ⟨e2, hk.1, hk.2⟩
  · split at h
    · obtain ⟨L, mx, s, h2, h3, h4, -, Lf, h5, rfl⟩ := solveLM_ok h
      have hk : VarsKept P1.constKeys P1.vars s.vars :=
        iterLoop_inv (fun s => VarsKept P1.constKeys P1.vars s.vars) (fun s r hs hr => lmStep_kept hs hr) _ _ _
          hk0 h4
      rw [e3, e6] at hk
      exact ⟨e2, hk.1, hk.2⟩
    · cases h
      rw [e3, e6] at hk0
      exact ⟨e2, by rw [e6], fun k _ => by rw [e6]⟩

/-- **C36.** `add_variable` (re)sets the initial value of its key, leaves every other initial value alone, never
creates a second entry for a key, and keeps the order of the existing keys. -/
theorem C36_add_variable (P : Prob K S) (k : K) (x : S) :
    (∀ k', (P.addVariable k x).varsInit.lookup k' = if k' = k then some x else P.varsInit.lookup k') ∧
    (P.varsInit.map Prod.fst).IsPrefix ((P.addVariable k x).varsInit.map Prod.fst) ∧
    ((P.varsInit.map Prod.fst).Nodup → ((P.addVariable k x).varsInit.map Prod.fst).Nodup) := by
  have hnone : ∀ d : List (K × S), ¬ (d.lookup k).isSome → k ∉ d.map Prod.fst := by
    intro d h hk
    apply h
    induction d with
    | nil => simp at hk
    | cons p d ih =>
      obtain ⟨a, y⟩ := p
      rw [List.lookup_cons]
      by_cases ha : k = a
      · subst ha; simp
      · have hb : (k == a) = false := by simpa using ha
        rw [hb]
        simp only [List.map_cons, List.mem_cons] at hk
        rcases hk with h' | h'
        · exact absurd h' ha
        · refine ih ?_ h'
          rw [List.lookup_cons, hb] at h
          exact h
  have hmap : ∀ d : List (K × S), (d.map fun p => if p.1 = k then (k, x) else p).map Prod.fst = d.map Prod.fst := by
    intro d
    rw [List.map_map]
    apply List.map_congr_left
    intro p _
    simp only [Function.comp]
    split
    · rename_i h; exact h.symm
    · rfl
  refine ⟨fun k' => dictSet_get P.varsInit k x k', ?_, ?_⟩
  · show List.IsPrefix _ ((dictSet P.varsInit k x).map Prod.fst)
    unfold dictSet
    split
    · rw [hmap]
    · rw [List.map_append]; exact List.prefix_append _ _
  · intro hn
    show ((dictSet P.varsInit k x).map Prod.fst).Nodup
    unfold dictSet
    split
    · rw [hmap]; exact hn
    · rename_i h
      rw [List.map_append, List.nodup_append]
      refine ⟨hn, by simp, ?_⟩
      intro a ha b hb
      simp only [List.map_cons, List.map_nil, List.mem_singleton] at hb
      subst hb
      rintro rfl
      exact hnone _ h ha

/-- **C36.** `set_variables_constant` makes exactly the given keys constant in addition to those already so. -/
theorem C36_set_constant (P : Prob K S) (ks : List K) (k : K) :
    k ∈ (P.setConstant ks).constKeys ↔ k ∈ P.constKeys ∨ k ∈ ks := by
  unfold Prob.setConstant
  show k ∈ ks.foldl _ P.constKeys ↔ _
  generalize P.constKeys = acc
  induction ks generalizing acc with
  | nil => simp
  | cons q qs ih =>
    rw [List.foldl_cons, ih]
    by_cases hq : q ∈ acc
    · rw [if_pos hq]
      simp only [List.mem_cons]
      constructor
      · rintro (h | h)
        · exact Or.inl h
        · exact Or.inr (Or.inr h)
      · rintro (h | rfl | h)
        · exact Or.inl h
        · exact Or.inl hq
        · exact Or.inr h
    · rw [if_neg hq]
      simp only [List.mem_append, List.mem_cons, List.not_mem_nil, or_false]
      tauto

/-- **C36.** A solver name other than GN and LM changes nothing: the result is the initial variables. -/
theorem C36_unknown_solver (o : VarOps S) (P P' : Prob K S) (h1 : P.cfg.solver ≠ "GN") (h2 : P.cfg.solver ≠ "LM")
    (h : P.solve o = .ok P') : P'.vars = P.varsInit ∧ P'.info = P.info := by
  unfold Prob.solve at h
  obtain ⟨P1, h3, h⟩ := bind_ok h
  rw [if_neg h1, if_neg h2] at h
  cases h
  obtain ⟨-, -, -, -, -, e6, e7, -⟩ := started_fields h3
  exact ⟨e6, e7⟩

/-- **C36.** Gauss-Newton with `max_iters = 0` fails: `UnboundLocalError` (after successful evaluations). -/
theorem C36_gn_zero_iters (o : VarOps S) (P P1 : Prob K S) (L : Lin) (hs : P.cfg.solver = "GN")
    (h0 : P.cfg.maxIters = 0) (h1 : P.started o = .ok P1) (hL : P1.linearize P1.vars = .ok L) :
    P.solve o = .error .unboundLocal := by
  unfold Prob.solve
  show (do let P1 ← P.started o; _ : Except Err (Prob K S)) = _
  rw [h1]
  simp only [bind, Except.bind]
  rw [if_pos hs]
  unfold solveGN
  rw [hL]
  simp only [bind, Except.bind]
  rw [(started_fields h1).1, h0]
  simp only [iterLoop]
  rw [hL]

/-! ### C39 -/

/-- **C39.** With a single loss or as many losses as residuals, every residual added (now and before) keeps its own
position in the list that is evaluated, paired with its loss. -/
theorem C39_all_contribute (P : Prob K S) (rs : List (Residual K S)) (la : LossArg)
    (hP : P.losses.length = P.residuals.length)
    (hla : ∀ ls, la = .many ls → ls.length = rs.length) :
    (P.addResiduals rs la).losses.length = (P.addResiduals rs la).residuals.length ∧
    (P.addResiduals rs la).residuals.zip (P.addResiduals rs la).losses =
      P.residuals.zip P.losses ++ rs.zip (match la with | .one l => rs.map fun _ => l | .many ls => ls) := by
  unfold Prob.addResiduals
  cases la with
  | one l =>
    refine ⟨by simp [hP], ?_⟩
    exact List.zip_append hP.symm
  | many ls =>
    refine ⟨by simp [hP, hla ls rfl], ?_⟩
    exact List.zip_append hP.symm

/-- **C39.** The claim is false for a shorter list of losses: whatever residuals follow the last loss are dropped
from the cost. -/
theorem C39_short_losses_drop (P : Prob K S) (hP : P.losses.length = P.residuals.length)
    (rs dropped : List (Residual K S)) (ls : List Loss) (h : ls.length = rs.length) (vars : List (K × S)) :
    totalCost vars ((P.addResiduals (rs ++ dropped) (.many ls)).residuals.zip
        (P.addResiduals (rs ++ dropped) (.many ls)).losses) =
      totalCost vars ((P.addResiduals rs (.many ls)).residuals.zip (P.addResiduals rs (.many ls)).losses) := by
  have e : ∀ q : List (Residual K S), ls.length = q.length → (q ++ dropped).zip ls = q.zip ls := by
    intro q hq
    have := List.zip_append (l₁ := q) (r₁ := dropped) (l₂ := ls) (r₂ := []) hq.symm
    simpa using this
  unfold Prob.addResiduals
  show totalCost vars ((P.residuals ++ (rs ++ dropped)).zip (P.losses ++ ls)) =
    totalCost vars ((P.residuals ++ rs).zip (P.losses ++ ls))
  rw [List.zip_append hP.symm, List.zip_append hP.symm, e rs h]

/-- **C39.** And a longer list of losses shifts the losses of every residual added later: the next residual is
evaluated with the surplus loss instead of its own. -/
theorem C39_long_losses_shift (P : Prob K S) (hP : P.losses.length = P.residuals.length)
    (r r' : Residual K S) (l extra l' : Loss) :
    ((P.addResiduals [r] (.many [l, extra])).addResidual r' l').residuals.zip
      ((P.addResiduals [r] (.many [l, extra])).addResidual r' l').losses =
      P.residuals.zip P.losses ++ [(r, l), (r', extra)] := by
  unfold Prob.addResidual Prob.addResiduals
  show ((P.residuals ++ [r]) ++ [r']).zip ((P.losses ++ [l, extra]) ++ [l']) = _
  rw [List.append_assoc, List.append_assoc, List.zip_append hP.symm]
  rfl

/-! ### C41 -/

/-- **C41.** First query after a solve: the block of the inverse of the information matrix. -/
theorem C41_first_query (P : Prob K S) (A : SqMat) (hi : P.info = some A) (hA : A.2.det ≠ 0)
    (hc : P.cov = none) (k1 k2 : K) (s1 s2 : Slice) (h1 : P.varSlices.lookup k1 = some s1)
    (h2 : P.varSlices.lookup k2 = some s2) :
    P.getCovarianceBlock k1 k2 =
      .ok (some (SqMat.block ⟨A.1, A.2⁻¹⟩ s1 s2), { P with cov := some ⟨A.1, A.2⁻¹⟩ }) := by
  unfold Prob.getCovarianceBlock Prob.computeCovariance
  simp only [hc, Option.isNone_none, if_true, hi]
  rw [if_neg hA]
  simp only [h1, h2]

/-- **C41.** Unknown keys give `None`. -/
theorem C41_unknown_key (P : Prob K S) (k1 k2 : K)
    (h : P.varSlices.lookup k1 = none ∨ P.varSlices.lookup k2 = none) :
    ∃ P', P.getCovarianceBlock k1 k2 = .ok (none, P') := by
  unfold Prob.getCovarianceBlock
  have hs : ∀ P' : Prob K S, P' = (if P.cov.isNone then P.computeCovariance else P) →
      P'.varSlices = P.varSlices := by
    intro P' hP'
    subst hP'
    split
    · unfold Prob.computeCovariance
      split
      · rfl
      · split <;> rfl
    · rfl
  simp only [hs _ rfl]
  rcases h with h | h
  · rw [h]; exact ⟨_, rfl⟩
  · rw [h]
    cases P.varSlices.lookup k1 <;> exact ⟨_, rfl⟩

/-- `solve` never touches the cached covariance. -/
theorem solve_cov (o : VarOps S) (P P' : Prob K S) (h : P.solve o = .ok P') : P'.cov = P.cov := by
  unfold Prob.solve at h
  obtain ⟨P1, h1, h⟩ := bind_ok h
  obtain ⟨-, -, -, -, -, -, -, e8⟩ := started_fields h1
  split at h
  · unfold solveGN at h
    obtain ⟨L, h2, h⟩ := bind_ok h
    obtain ⟨s, h3, h⟩ := bind_ok h
    obtain ⟨Lf, h4, h⟩ := bind_ok h
    split at h
    · cases h
    · cases h; exact e8
  · split at h
    · obtain ⟨L, mx, s, h2, h3, h4, -, Lf, h5, rfl⟩ := solveLM_ok h
      exact e8
    · cases h; exact e8

/-- **C41.** The claim is false from the second solve on: once a covariance `M` is cached, every later query — after
adding residuals, variables or constants and solving again, any number of times — reads `M`, whatever the latest
information matrix is. -/
theorem C41_stale (o : VarOps S) (P Q Q' : Prob K S) (M : SqMat) (hc : P.cov = some M)
    (hQ : Q.cov = P.cov) (h : Q.solve o = .ok Q') (k1 k2 : K) (s1 s2 : Slice)
    (h1 : Q'.varSlices.lookup k1 = some s1) (h2 : Q'.varSlices.lookup k2 = some s2) :
    Q'.getCovarianceBlock k1 k2 = .ok (some (SqMat.block M s1 s2), Q') := by
  have hcov : Q'.cov = some M := by rw [solve_cov o Q Q' h, hQ, hc]
  unfold Prob.getCovarianceBlock
  simp only [hcov, Option.isNone_some, Bool.false_eq_true, if_false, h1, h2]

/-- Nothing that builds the problem touches the cache either (so `hQ` of `C41_stale` holds after any of them). -/
theorem C41_builders_keep_cache (P : Prob K S) (rs : List (Residual K S)) (la : LossArg) (r : Residual K S)
    (l : Loss) (k : K) (x : S) (ks : List K) :
    (P.addResiduals rs la).cov = P.cov ∧ (P.addResidual r l).cov = P.cov ∧ (P.addVariable k x).cov = P.cov ∧
    (P.setConstant ks).cov = P.cov := ⟨rfl, rfl, rfl, rfl⟩

/-! ### C42 -/

/-- The properties of a robust loss. -/
structure SoundLoss (l : Loss) : Prop where
  zero : l.loss 0 = 0
  nonneg : ∀ e, 0 ≤ l.loss e
  mono : ∀ e e', |e| ≤ |e'| → l.loss e ≤ l.loss e'
  strict : ∀ e e', |e| < |e'| → l.loss e < l.loss e'
  weight_pos : ∀ e, 0 < l.weight e
  weight_le_one : ∀ e, l.weight e ≤ 1
  deriv : ∀ e, HasDerivAt l.loss (l.weight e * e) e

/-- **C42.** The L2 loss. -/
theorem C42_l2 : SoundLoss l2Loss where
  zero := by simp [l2Loss]
  nonneg e := by
    show 0 ≤ 1 / 2 * e * e
    nlinarith [mul_self_nonneg e]
  mono e e' h := by
    have := sq_le_sq.2 h
    show 1 / 2 * e * e ≤ 1 / 2 * e' * e'
    nlinarith
  strict e e' h := by
    have := sq_lt_sq.2 h
    show 1 / 2 * e * e < 1 / 2 * e' * e'
    nlinarith
  weight_pos _ := one_pos
  weight_le_one _ := le_refl _
  deriv e := by
    have h := ((hasDerivAt_id e).const_mul (1 / 2)).mul (hasDerivAt_id e)
    refine HasDerivAt.congr_deriv (f := fun e : ℝ => 1 / 2 * e * e) h ?_
    show 1 / 2 * 1 * e + 1 / 2 * e * 1 = 1 * e
    ring

/-- **C42.** The Cauchy loss, for every `c ≠ 0`; it never exceeds the L2 loss. -/
theorem C42_cauchy (c : ℝ) (hc : c ≠ 0) :
    SoundLoss (cauchyLoss c) ∧ ∀ e, (cauchyLoss c).loss e ≤ l2Loss.loss e := by
  have hc2 : 0 < c ^ 2 := by positivity
  have hpos : ∀ e : ℝ, 0 < 1 + (e / c) ^ 2 := fun e => by positivity
  refine ⟨⟨?_, ?_, ?_, ?_, ?_, ?_, ?_⟩, ?_⟩
  · simp [cauchyLoss]
  · intro e
    have : 0 ≤ Real.log (1 + (e / c) ^ 2) := Real.log_nonneg (by have := sq_nonneg (e / c); linarith)
    show 0 ≤ (1 / 2 * c ^ 2) * Real.log (1 + (e / c) ^ 2)
    positivity
  · intro e e' h
    have h2 : e ^ 2 ≤ e' ^ 2 := sq_le_sq.2 h
    have h3 : (e / c) ^ 2 ≤ (e' / c) ^ 2 := by
      rw [div_pow, div_pow]; exact div_le_div_of_nonneg_right h2 hc2.le
    have h4 := Real.log_le_log (hpos e) (by linarith : 1 + (e / c) ^ 2 ≤ 1 + (e' / c) ^ 2)
    show (1 / 2 * c ^ 2) * Real.log (1 + (e / c) ^ 2) ≤ (1 / 2 * c ^ 2) * Real.log (1 + (e' / c) ^ 2)
    exact mul_le_mul_of_nonneg_left h4 (by positivity)
  · intro e e' h
    have h2 : e ^ 2 < e' ^ 2 := sq_lt_sq.2 h
    have h3 : (e / c) ^ 2 < (e' / c) ^ 2 := by
      rw [div_pow, div_pow]; exact div_lt_div_of_pos_right h2 hc2
    have h4 := Real.log_lt_log (hpos e) (by linarith : 1 + (e / c) ^ 2 < 1 + (e' / c) ^ 2)
    show (1 / 2 * c ^ 2) * Real.log (1 + (e / c) ^ 2) < (1 / 2 * c ^ 2) * Real.log (1 + (e' / c) ^ 2)
    exact mul_lt_mul_of_pos_left h4 (by positivity)
  · intro e
    exact one_div_pos.2 (hpos e)
  · intro e
    show 1 / (1 + (e / c) ^ 2) ≤ 1
    rw [div_le_one (hpos e)]
    have := sq_nonneg (e / c); linarith
  · intro e
    have h1 : HasDerivAt (fun e : ℝ => 1 + (e / c) ^ 2) (2 * (e / c) * (1 / c)) e := by
      have := (((hasDerivAt_id e).div_const c).pow 2).const_add 1
      simpa using this
    have h2 := (h1.log (hpos e).ne').const_mul (1 / 2 * c ^ 2)
    refine HasDerivAt.congr_deriv (f := fun e : ℝ => (1 / 2 * c ^ 2) * Real.log (1 + (e / c) ^ 2)) h2 ?_
    show _ = 1 / (1 + (e / c) ^ 2) * e
    have := (hpos e).ne'
    field_simp
  · intro e
    have h := Real.log_le_sub_one_of_pos (hpos e)
    show (1 / 2 * c ^ 2) * Real.log (1 + (e / c) ^ 2) ≤ 1 / 2 * e * e
    calc (1 / 2 * c ^ 2) * Real.log (1 + (e / c) ^ 2) ≤ (1 / 2 * c ^ 2) * ((e / c) ^ 2) :=
          mul_le_mul_of_nonneg_left (by linarith) (by positivity)
      _ = 1 / 2 * e * e := by field_simp

end Verif
