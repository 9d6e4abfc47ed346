import Verif.Props.BatchEst
import Verif.Props.Unobservable

/-!
Where `BatchEstimator` does not do what one expects (C71, C72).
-/

namespace Verif

set_option linter.unusedVariables false
set_option linter.unusedSectionVars false

variable {V U : Type} {n : ℕ}

/-! ### The problem that is built from the graph -/

theorem dictSet_fresh {α : Type} {d : List (ℕ × α)} {k : ℕ} {a : α} (h : ∀ p ∈ d, p.1 < k) :
    dictSet d k a = d ++ [(k, a)] := by
  unfold dictSet
  have : d.lookup k = none := by
    rw [List.lookup_eq_none_iff]
    intro p hp
    have := h p hp
    simp only [beq_eq_false_iff_ne, bne_iff_ne]
    omega
  rw [this]
  simp

theorem foldl_addVariable : ∀ (xs : List (St V)) (i : ℕ) (P : Prob ℕ (St V)), (∀ p ∈ P.varsInit, p.1 < i) →
    let Q := (xs.zipIdx i).foldl (fun P p => P.addVariable p.2 p.1) P
    Q.varsInit = P.varsInit ++ (xs.zipIdx i).map (fun p => (p.2, p.1)) ∧ Q.constKeys = P.constKeys ∧
      Q.residuals = P.residuals ∧ Q.losses = P.losses ∧ Q.info = P.info ∧ Q.cov = P.cov ∧ Q.cfg = P.cfg ∧
      Q.varSlices = P.varSlices
  | [], i, P, h => by simp
  | x :: xs, i, P, h => by
    have ih := foldl_addVariable xs (i + 1) (P.addVariable i x) (by
      intro p hp
      unfold Prob.addVariable at hp
      simp only at hp
      rw [dictSet_fresh h] at hp
      rcases List.mem_append.1 hp with hp | hp
      · have := h p hp; omega
      · simp at hp; rw [hp]; simp)
    simp only [List.zipIdx_cons, List.foldl_cons]
    obtain ⟨a, b⟩ := ih
    refine ⟨?_, b⟩
    rw [a]
    unfold Prob.addVariable
    simp only
    rw [dictSet_fresh h]
    simp

theorem foldl_addResidual {S : Type} : ∀ (rs : List (Residual ℕ S)) (P : Prob ℕ S),
    let Q := rs.foldl (fun P r => P.addResidual r l2Loss) P
    Q.residuals = P.residuals ++ rs ∧ Q.losses = P.losses ++ rs.map (fun _ => l2Loss) ∧ Q.varsInit = P.varsInit ∧
      Q.constKeys = P.constKeys ∧ Q.info = P.info ∧ Q.cov = P.cov ∧ Q.cfg = P.cfg ∧ Q.varSlices = P.varSlices
  | [], P => by simp
  | r :: rs, P => by
    have ih := foldl_addResidual rs (P.addResidual r l2Loss)
    simp only [List.foldl_cons]
    obtain ⟨a, b, c⟩ := ih
    refine ⟨?_, ?_, c⟩
    · rw [a]; simp [Prob.addResidual]
    · rw [b]; simp [Prob.addResidual]

/-- The problem: the variables under the keys `0, 1, ...`, one residual with L2 loss per factor, nothing constant. -/
theorem problem_spec {o : StateOps V n} {f : ProcModel V U n} {cfg : ProbCfg} {g : BatchGraph V U n}
    {P : Prob ℕ (St V)} (h : g.problem o f cfg = .ok P) :
    ∃ rs, g.factors.mapM (BFactor.residual o f) = .ok rs ∧ P.residuals = rs ∧ P.losses = rs.map (fun _ => l2Loss) ∧
      P.varsInit = g.vars.zipIdx.map (fun p => (p.2, p.1)) ∧ P.constKeys = [] ∧ P.info = none ∧ P.cov = none ∧
      P.cfg = cfg := by
  unfold BatchGraph.problem at h
  obtain ⟨rs, h1, h⟩ := bind_ok h
  cases h
  obtain ⟨a1, a2, a3, a4, a5, a6, a7, a8⟩ := foldl_addVariable g.vars 0 (Prob.new cfg : Prob ℕ (St V)) (by simp [Prob.new])
  obtain ⟨b1, b2, b3, b4, b5, b6, b7, b8⟩ := foldl_addResidual rs
    (g.vars.zipIdx.foldl (fun P p => P.addVariable p.2 p.1) (Prob.new cfg : Prob ℕ (St V)))
  refine ⟨rs, h1, ?_, ?_, ?_, ?_, ?_, ?_, ?_⟩
  · rw [b1, a3]; simp [Prob.new]
  · rw [b2, a4]; simp [Prob.new]
  · rw [b3, a1]; simp [Prob.new]
  · rw [b4, a2]; rfl
  · rw [b5, a5]; rfl
  · rw [b6, a6]; rfl
  · rw [b7, a7]; rfl

/-! ### The results -/

theorem correctStates_proj {K S T : Type} [DecidableEq K] {o : VarOps S} {π : S → T}
    (hπ : ∀ x dx y, o.plus x dx = .ok y → π y = π x) {const : List K} {sl : List (K × Slice)} {dx : List ℝ} :
    ∀ {vars vars' : List (K × S)}, correctStates o const sl dx vars = .ok vars' →
      vars'.map (fun p => (p.1, π p.2)) = vars.map (fun p => (p.1, π p.2))
  | [], vars', h => by cases h; rfl
  | (k, x) :: l, vars', h => by
    unfold correctStates at h
    split at h
    · obtain ⟨l', h1, h2⟩ := bind_ok h
      cases h2
      simp [correctStates_proj hπ h1]
    · obtain ⟨s, h1, h⟩ := bind_ok h
      obtain ⟨x', h2, h⟩ := bind_ok h
      obtain ⟨l', h3, h⟩ := bind_ok h
      cases h
      simp [correctStates_proj hπ h3, hπ _ _ _ h2]

/-- Whatever `plus` keeps (a stamp, an identifier), `solve` keeps. -/
theorem solve_proj {K S T : Type} [DecidableEq K] {o : VarOps S} {π : S → T}
    (hπ : ∀ x dx y, o.plus x dx = .ok y → π y = π x) (P P' : Prob K S) (h : P.solve o = .ok P') :
    P'.vars.map (fun p => (p.1, π p.2)) = P.varsInit.map (fun p => (p.1, π p.2)) := by
  unfold Prob.solve at h
  obtain ⟨P1, h1, h⟩ := bind_ok h
  obtain ⟨e1, e2, e3, e4, e5, e6, -, -⟩ := started_fields h1
  rw [← e6]
  let I : LoopState K S → Prop := fun s => s.vars.map (fun p => (p.1, π p.2)) = P1.vars.map (fun p => (p.1, π p.2))
  split at h
  · unfold solveGN at h
    obtain ⟨L, h2, h⟩ := bind_ok h
    obtain ⟨s, h3, h⟩ := bind_ok h
    obtain ⟨Lf, h4, h⟩ := bind_ok h
    have hk : I s := iterLoop_inv I (by
      intro s r hs hr
      unfold gnStep at hr
      split at hr
      · cases hr; exact hs
      · obtain ⟨δ, q1, hr⟩ := bind_ok hr
        obtain ⟨v', q2, hr⟩ := bind_ok hr
        obtain ⟨L', q3, hr⟩ := bind_ok hr
        obtain ⟨g, q4, hr⟩ := bind_ok hr
        cases hr
        exact (correctStates_proj hπ q2).trans hs) _ _ _ rfl h3
    split at h
    · cases h
    · cases h; exact hk
  · split at h
    · obtain ⟨L, mx, s, h2, h3, h4, -, Lf, h5, rfl⟩ := solveLM_ok h
      exact iterLoop_inv I (by
        intro s r hs hr
        unfold lmStep at hr
        obtain ⟨δ, q1, hr⟩ := bind_ok hr
        split at hr
        · cases hr; exact hs
        · obtain ⟨v', q2, hr⟩ := bind_ok hr
          obtain ⟨L', q3, hr⟩ := bind_ok hr
          obtain ⟨g, q4, hr⟩ := bind_ok hr
          cases hr
          show (lmUpdate s _ v' L' _ g).vars.map (fun p => (p.1, π p.2)) = _
          unfold lmUpdate
          simp only []
          split
          · exact (correctStates_proj hπ q2).trans hs
          · exact hs) _ _ _ rfl h4
    · cases h; rfl

theorem batchResults_states : ∀ {l : List (ℕ × St V)} {P : Prob ℕ (St V)} {res : List (St V × DMat)},
    batchResults P l = .ok res → res.map Prod.fst = l.map Prod.snd
  | [], P, res, h => by
    simp only [batchResults] at h
    cases h; rfl
  | (k, x) :: l, P, res, h => by
    simp only [batchResults] at h
    obtain ⟨r, h1, h⟩ := bind_ok h
    obtain ⟨b, h2, h⟩ := bind_ok h
    obtain ⟨rest, h3, h⟩ := bind_ok h
    cases h
    simp [batchResults_states h3]

/-- **C46, results.** On success there is exactly one estimate for each variable of the graph, in the same (time) order
and with the same stamp. -/
theorem C46_results (o : StateOps V n) (f : ProcModel V U n) (rnd : ℝ → ℝ) (cfg : ProbCfg) (x0 : St V) (P0 : Mat n n)
    (inputs : List (StInp U)) (meas : List (StMeas V n)) (res : List (St V × DMat))
    (h : batchSolve o f rnd cfg x0 P0 inputs meas = .ok res) :
    ∃ g, batchGraph f rnd x0 P0 inputs meas = .ok g ∧ res.length = g.vars.length ∧
      res.map (fun r => r.1.stamp) = g.vars.map St.stamp := by
  unfold batchSolve at h
  obtain ⟨g, hg, h1⟩ := bind_ok h
  obtain ⟨P, hP, h2⟩ := bind_ok h1
  obtain ⟨P', hP', h3⟩ := bind_ok h2
  obtain ⟨rs, p1, p2, p3, p4, -⟩ := problem_spec hP
  have hproj := solve_proj (π := St.stamp) (o := o.varOps) (by
    intro x dx y hy
    unfold StateOps.varOps at hy
    simp only at hy
    split at hy
    · cases hy; rfl
    · cases hy) P P' hP'
  have hst := batchResults_states h3
  have e1 : res.map (fun r => r.1.stamp) = P'.vars.map (fun p => p.2.stamp) := by
    have := congrArg (List.map St.stamp) hst
    simpa [List.map_map, Function.comp_def] using this
  have e2 : P'.vars.map (fun p => p.2.stamp) = P.varsInit.map (fun p => p.2.stamp) := by
    have := congrArg (List.map Prod.snd) hproj
    simpa [List.map_map, Function.comp_def] using this
  have e3 : P.varsInit.map (fun p => p.2.stamp) = g.vars.map St.stamp := by
    rw [p4, List.map_map]
    have : ((fun p : ℕ × St V => p.2.stamp) ∘ fun p : St V × ℕ => (p.2, p.1)) = St.stamp ∘ Prod.fst := rfl
    rw [this, ← List.map_map, List.zipIdx_map_fst]
  have e4 := e1.trans (e2.trans e3)
  exact ⟨g, hg, by simpa using congrArg List.length e4, e4⟩

/-! ### Variables that only measurements touch -/

/-- How many rows a factor has if it touches key `k`. -/
def BFactor.rowsAt (k : ℕ) : BFactor V U n → ℕ
  | .prior k' _ _ => if k' = k then n else 0
  | .process k1 k2 _ => if k1 = k ∨ k2 = k then n else 0
  | .meas k' y => if k' = k then y.meas.m else 0

theorem map_ok {α β : Type} {a : Except Err α} {f : α → β} {b : β} (h : a.map f = .ok b) :
    ∃ v, a = .ok v ∧ f v = b := by
  cases a with
  | error e => cases h
  | ok v => exact ⟨v, rfl, by simpa [Except.map] using h⟩

theorem rowsOf_toResidual {m : ℕ} (vars : List (ℕ × St V)) (keys : List ℕ)
    (ev : List (St V) → Option (List Bool) → Except Err (ResOut m n)) :
    rowsOf vars (toResidual keys ev) ≤ m := by
  unfold rowsOf
  cases h : lookupAll vars (toResidual keys ev).keys with
  | error e => simp
  | ok xs =>
    simp only
    cases h2 : (toResidual keys ev).error xs with
    | error e => simp
    | ok e =>
      simp only
      obtain ⟨v, h3, rfl⟩ := map_ok h2
      simp

theorem residual_rows {o : StateOps V n} {f : ProcModel V U n} (vars : List (ℕ × St V)) (k : ℕ) {b : BFactor V U n}
    {r : Residual ℕ (St V)} (h : b.residual o f = .ok r) :
    (if k ∈ r.keys then rowsOf vars r else 0) ≤ b.rowsAt k := by
  cases b with
  | prior k' x0 P0 =>
    obtain ⟨v, h1, rfl⟩ := map_ok h
    simp only [BFactor.rowsAt]
    by_cases hk : k' = k
    · rw [if_pos hk, if_pos (by simp [toResidual, hk])]
      exact rowsOf_toResidual vars _ _
    · rw [if_neg (by simp [toResidual, Ne.symm hk])]; exact Nat.zero_le _
  | process k1 k2 u =>
    cases h
    simp only [BFactor.rowsAt]
    by_cases hk : k1 = k ∨ k2 = k
    · rw [if_pos hk, if_pos (by rcases hk with h | h <;> simp [toResidual, h])]
      exact rowsOf_toResidual vars _ _
    · push Not at hk
      rw [if_neg (by simp [toResidual, Ne.symm hk.1, Ne.symm hk.2])]; exact Nat.zero_le _
  | meas k' y =>
    cases h
    simp only [BFactor.rowsAt]
    by_cases hk : k' = k
    · rw [if_pos hk, if_pos (by simp [toResidual, hk])]
      exact rowsOf_toResidual vars _ _
    · rw [if_neg (by simp [toResidual, Ne.symm hk])]; exact Nat.zero_le _

theorem mapM_rows {o : StateOps V n} {f : ProcModel V U n} (vars : List (ℕ × St V)) (k : ℕ) :
    ∀ {fs : List (BFactor V U n)} {rs : List (Residual ℕ (St V))}, fs.mapM (BFactor.residual o f) = .ok rs →
      (rs.map fun r => if k ∈ r.keys then rowsOf vars r else 0).sum ≤ (fs.map (BFactor.rowsAt k)).sum
  | [], rs, h => by
    rw [List.mapM_nil] at h
    cases h; simp
  | b :: fs, rs, h => by
    rw [List.mapM_cons] at h
    obtain ⟨r, h1, h⟩ := bind_ok h
    obtain ⟨rs', h2, h⟩ := bind_ok h
    cases h
    simp only [List.map_cons, List.sum_cons]
    exact Nat.add_le_add (residual_rows vars k h1) (mapM_rows vars k h2)

theorem batchProcess_rows {stamps : List ℝ} {k : ℕ} {τ : ℝ} (hk : stamps[k]? = some τ) :
    ∀ {us : List (StInp U)} {ps : List (BFactor V U n)}, batchProcess stamps us = .ok ps →
      (∀ u ∈ us, u.stamp ∈ stamps ∧ u.stamp ≠ τ) → ∀ b ∈ ps, b.rowsAt k = 0
  | [], ps, h, hu => by
    simp only [batchProcess] at h
    cases h; simp
  | [u], ps, h, hu => by
    simp only [batchProcess] at h
    cases h; simp
  | u :: u' :: us, ps, h, hu => by
    simp only [batchProcess] at h
    obtain ⟨k1, h1, h⟩ := bind_ok h
    obtain ⟨k2, h2, h⟩ := bind_ok h
    obtain ⟨rest, h3, h⟩ := bind_ok h
    cases h
    have ih := batchProcess_rows hk h3 (fun v hv => hu v (by simp only [List.mem_cons] at hv ⊢; tauto))
    intro b hb
    rcases List.mem_cons.1 hb with rfl | hb
    · obtain ⟨a1, a2⟩ := hu u (by simp)
      obtain ⟨b1, b2⟩ := hu u' (by simp)
      have e1 := (findNearest_isNearest h1).exact a1
      have e2 := (findNearest_isNearest h2).exact b1
      simp only [BFactor.rowsAt]
      rw [if_neg]
      rintro (rfl | rfl)
      · rw [hk] at e1; exact a2 (Option.some.inj e1).symm
      · rw [hk] at e2; exact b2 (Option.some.inj e2).symm
    · exact ih b hb

open Classical in
theorem batchMeas_rows {stamps : List ℝ} (hnd : stamps.Nodup) {k : ℕ} {τ : ℝ} (hk : stamps[k]? = some τ) :
    ∀ {ys : List (StMeas V n)} {ms : List (BFactor V U n)}, batchMeas stamps ys = .ok ms →
      (∀ y ∈ ys, y.stamp ∈ stamps) →
      (ms.map (BFactor.rowsAt k)).sum = (ys.map fun y => if y.stamp = τ then y.meas.m else 0).sum
  | [], ms, h, hy => by
    simp only [batchMeas] at h
    cases h; simp
  | y :: ys, ms, h, hy => by
    simp only [batchMeas] at h
    obtain ⟨k1, h1, h⟩ := bind_ok h
    obtain ⟨rest, h3, h⟩ := bind_ok h
    cases h
    have ih := batchMeas_rows hnd hk h3 (fun v hv => hy v (by simp [hv]))
    have e1 := (findNearest_isNearest h1).exact (hy y (by simp))
    simp only [List.map_cons, List.sum_cons, ih]
    congr 1
    simp only [BFactor.rowsAt]
    by_cases hkk : k1 = k
    · subst hkk
      rw [hk] at e1
      rw [if_pos rfl, if_pos (Option.some.inj e1).symm]
    · rw [if_neg hkk, if_neg]
      intro ht
      rw [ht] at e1
      obtain ⟨l1, l2⟩ := List.getElem?_eq_some_iff.1 e1
      obtain ⟨l3, l4⟩ := List.getElem?_eq_some_iff.1 hk
      exact hkk ((List.Nodup.getElem_inj_iff hnd).1 (l2.trans l4.symm))

/-- **C72.** A time between inputs. If at time `τ`, later than some used data, there are measurements but no input, no
process residual is attached to the variable of time `τ`: it is tied to nothing but its own measurements. -/
theorem C72_no_process_factor (f : ProcModel V U n) (hf : KeepsStamp f) (rnd : ℝ → ℝ) (x0 : St V) (t0 : ℝ)
    (h0 : x0.stamp = some t0) (P0 : Mat n n) (inputs : List (StInp U)) (meas : List (StMeas V n))
    (hi : ∀ u ∈ inputs, rnd u.stamp = u.stamp) (hm : ∀ y ∈ meas, rnd y.stamp = y.stamp)
    (g : BatchGraph V U n) (h : batchGraph f rnd x0 P0 inputs meas = .ok g)
    (k : ℕ) (y : StMeas V n) (hy : BFactor.meas k y ∈ g.factors) (hτ : ∀ u ∈ inputs, u.stamp ≠ y.stamp) :
    ∀ k1 k2 u, BFactor.process k1 k2 u ∈ g.factors → k1 ≠ k ∧ k2 ≠ k := by
  obtain ⟨stamps, g1, -, -, g4, g5⟩ := C46_exact_keys f hf rnd x0 t0 h0 P0 inputs meas hi hm g h
  have hk := g5 k y hy
  intro k1 k2 u hu
  obtain ⟨e1, u', hu', -, e2⟩ := g4 k1 k2 u hu
  constructor
  · rintro rfl
    rw [hk] at e1
    obtain ⟨s0, ss, xs, ps, ms, h1, h2, h3, h4, rfl⟩ := batchGraph_parts h0 h
    simp only [List.cons_append, List.mem_cons, reduceCtorEq, false_or, List.mem_append] at hu
    have hsub : ∀ u ∈ batchUsed StInp.stamp t0 inputs, u ∈ inputs := by
      intro u hu
      by_cases hex : ∃ a ∈ inputs, t0 ≤ StInp.stamp a
      · exact (((batchUsed_spec _ _ _).2.1 hex u).1 hu).1
      · push Not at hex
        exact (((batchUsed_spec _ _ _).2.2 hex).mem_iff).1 hu
    rcases hu with hu | hu
    · obtain ⟨i, hi', hiu⟩ := List.getElem_of_mem hu
      obtain ⟨q1, q2⟩ := batchProcess_spec h3
      have hi1 : i < (batchUsed StInp.stamp t0 inputs).length := by omega
      obtain ⟨a, b, q3, -⟩ := q2 i _ _ (List.getElem?_eq_getElem hi1) (List.getElem?_eq_getElem (by omega))
      rw [List.getElem?_eq_getElem hi', hiu] at q3
      simp only [Option.some.injEq, BFactor.process.injEq] at q3
      exact hτ u (q3.2.2 ▸ hsub _ (List.getElem_mem hi1)) (Option.some.inj e1).symm
    · obtain ⟨i, hi', hiu⟩ := List.getElem_of_mem hu
      obtain ⟨q1, q2⟩ := batchMeas_spec h4
      obtain ⟨a, q3, -⟩ := q2 i _ (List.getElem?_eq_getElem (by omega))
      rw [List.getElem?_eq_getElem hi', hiu] at q3
      simp at q3
  · rintro rfl
    rw [hk] at e2
    exact hτ u' hu' (Option.some.inj e2).symm

open Classical in
/-- **C72.** Consequently `BatchEstimator.solve` cannot return a result, for either solver and any number of iterations,
if at some time strictly after the first used stamp there is a measurement but no input and the measurements of that
time have together fewer components than the state has degrees of freedom. -/
theorem C72_between_inputs_fails (o : StateOps V n) (f : ProcModel V U n) (hf : KeepsStamp f) (rnd : ℝ → ℝ)
    (cfg : ProbCfg) (x0 : St V) (t0 : ℝ) (h0 : x0.stamp = some t0) (P0 : Mat n n) (inputs : List (StInp U))
    (meas : List (StMeas V n)) (hi : ∀ u ∈ inputs, rnd u.stamp = u.stamp) (hm : ∀ y ∈ meas, rnd y.stamp = y.stamp)
    (us : List (StInp U)) (hus : us = batchUsed StInp.stamp t0 inputs)
    (ys : List (StMeas V n)) (hys : ys = batchUsed StMeas.stamp t0 meas)
    (τ : ℝ) (y : StMeas V n) (hy : y ∈ ys) (hyτ : y.stamp = τ) (hτ : ∀ u ∈ us, u.stamp ≠ τ)
    (hlater : (∃ u ∈ us, u.stamp < τ) ∨ ∃ y' ∈ ys, y'.stamp < τ)
    (hthin : (ys.map fun y => if y.stamp = τ then y.meas.m else 0).sum < n) (res : List (St V × DMat)) :
    batchSolve o f rnd cfg x0 P0 inputs meas ≠ .ok res := by
  intro hres
  unfold batchSolve at hres
  obtain ⟨g, hg, hres1⟩ := bind_ok hres
  obtain ⟨P, hP, hres2⟩ := bind_ok hres1
  obtain ⟨P', hP', hres3⟩ := bind_ok hres2
  clear hres1 hres2
  obtain ⟨s0, ss, xs, ps, ms, h1, h2, h3, h4, rfl⟩ := batchGraph_parts h0 hg
  rw [← hus, ← hys] at h1
  rw [← hus] at h3
  rw [← hys] at h4
  have husub : ∀ u ∈ us, u ∈ inputs := by
    intro u hu
    rw [hus] at hu
    by_cases hex : ∃ a ∈ inputs, t0 ≤ StInp.stamp a
    · exact (((batchUsed_spec _ _ _).2.1 hex u).1 hu).1
    · push Not at hex
      exact (((batchUsed_spec _ _ _).2.2 hex).mem_iff).1 hu
  have hysub : ∀ u ∈ ys, u ∈ meas := by
    intro u hu
    rw [hys] at hu
    by_cases hex : ∃ a ∈ meas, t0 ≤ StMeas.stamp a
    · exact (((batchUsed_spec _ _ _).2.1 hex u).1 hu).1
    · push Not at hex
      exact (((batchUsed_spec _ _ _).2.2 hex).mem_iff).1 hu
  have hsort : (s0 :: ss).Pairwise (· < ·) := by rw [← h1]; exact npUnique_sorted _
  have hmem : ∀ t, t ∈ s0 :: ss ↔ (∃ u ∈ us, u.stamp = t) ∨ ∃ y ∈ ys, y.stamp = t := by
    intro t
    rw [← h1, mem_batchStamps]
    constructor
    · rintro (⟨u, hu, e⟩ | ⟨u, hu, e⟩)
      · exact Or.inl ⟨u, hu, by rw [← e, hi u (husub u hu)]⟩
      · exact Or.inr ⟨u, hu, by rw [← e, hm u (hysub u hu)]⟩
    · rintro (⟨u, hu, e⟩ | ⟨u, hu, e⟩)
      · exact Or.inl ⟨u, hu, by rw [← e, hi u (husub u hu)]⟩
      · exact Or.inr ⟨u, hu, by rw [← e, hm u (hysub u hu)]⟩
  have hτm : τ ∈ s0 :: ss := (hmem τ).2 (Or.inr ⟨y, hy, hyτ⟩)
  obtain ⟨k, hkl, hk⟩ := List.getElem_of_mem hτm
  have hk' : (s0 :: ss)[k]? = some τ := by rw [List.getElem?_eq_getElem hkl, hk]
  have hk0 : k ≠ 0 := by
    rintro rfl
    simp only [List.getElem_cons_zero] at hk
    obtain ⟨t, ht, hlt⟩ : ∃ t ∈ s0 :: ss, t < τ := by
      rcases hlater with ⟨u, hu, h⟩ | ⟨u, hu, h⟩
      · exact ⟨_, (hmem _).2 (Or.inl ⟨u, hu, rfl⟩), h⟩
      · exact ⟨_, (hmem _).2 (Or.inr ⟨u, hu, rfl⟩), h⟩
    rcases List.mem_cons.1 ht with h | h
    · linarith
    · have := (List.pairwise_cons.1 hsort).1 t h
      linarith
  obtain ⟨rs, p1, p2, p3, p4, p5, p6, p7, p8⟩ := problem_spec hP
  have hst := batchPropagate_stamps hf h0 h2
  have hlen : xs.length = ss.length := by simpa using congrArg List.length hst
  have hkeys : P.varsInit.map Prod.fst = List.range (x0 :: xs).length := by
    rw [p4, List.map_map]
    have : (Prod.fst ∘ fun p : St V × ℕ => (p.2, p.1)) = Prod.snd := rfl
    rw [this, List.zipIdx_map_snd, List.range_eq_range']
  have hnd : (P.varsInit.map Prod.fst).Nodup := by rw [hkeys]; exact List.nodup_range
  have hkk : k ∈ P.varsInit.map Prod.fst := by
    rw [hkeys, List.mem_range]
    simp only [List.length_cons] at hkl ⊢
    omega
  obtain ⟨⟨k'', x⟩, hkx, rfl⟩ := List.mem_map.1 hkk
  have hrows : (P.residuals.map fun r => if k'' ∈ r.keys then rowsOf P.varsInit r else 0).sum < o.varOps.dof x := by
    show _ < n
    refine lt_of_le_of_lt ?_ hthin
    rw [p2]
    refine (mapM_rows P.varsInit k'' p1).trans ?_
    simp only [List.cons_append, List.map_cons, List.sum_cons, List.map_append, List.sum_append]
    rw [batchMeas_rows (hsort.imp fun h => ne_of_lt h) hk' h4 (fun y hy => (hmem _).2 (Or.inr ⟨y, hy, rfl⟩))]
    have hz : (ps.map (BFactor.rowsAt k'')).sum = 0 := by
      rw [List.sum_eq_zero]
      intro a ha
      obtain ⟨b, hb, rfl⟩ := List.mem_map.1 ha
      exact batchProcess_rows hk' h3 (fun u hu => ⟨(hmem _).2 (Or.inl ⟨u, hu, rfl⟩), hτ u hu⟩) b hb
    rw [hz]
    have : BFactor.rowsAt k'' (BFactor.prior 0 x0.value P0 : BFactor V U n) = 0 := by
      simp only [BFactor.rowsAt]
      rw [if_neg (Ne.symm hk0)]
    rw [this]
    simp
  obtain ⟨c1, c2, c3⟩ := C36_constant o.varOps P P' hP'
  cases hv : P'.vars with
  | nil => rw [hv, hkeys] at c2; simp at c2
  | cons p l =>
    obtain ⟨k0, x'⟩ := p
    rw [hv] at hres3
    have hk0' : k0 ∈ P.varsInit.map Prod.fst := by rw [← c2, hv]; simp
    have := C72_covariance_raises o.varOps P P' hP' ⟨p6, p7, p5⟩ hnd k'' x hkx hrows k0 hk0'
    unfold batchResults at hres3
    rw [this] at hres3
    cases hres3

/-! ### A start before the first stamp -/

/-- **C71.** The first variable keeps the stamp of `x0` but stands for the first stamp of the data: a measurement of
that first stamp is attached to it. So if `x0` is older than all the data and the first datum is a measurement, that
measurement is compared with the state at the wrong time. -/
theorem C71_wrong_time (f : ProcModel V U n) (hf : KeepsStamp f) (rnd : ℝ → ℝ) (x0 : St V) (t0 : ℝ)
    (h0 : x0.stamp = some t0) (P0 : Mat n n) (inputs : List (StInp U)) (meas : List (StMeas V n))
    (hi : ∀ u ∈ inputs, rnd u.stamp = u.stamp) (hm : ∀ y ∈ meas, rnd y.stamp = y.stamp)
    (hold : (∀ u ∈ inputs, t0 < u.stamp) ∧ ∀ y ∈ meas, t0 < y.stamp)
    (y : StMeas V n) (hy : y ∈ meas) (hfirst : (∀ u ∈ inputs, y.stamp ≤ u.stamp) ∧ ∀ y' ∈ meas, y.stamp ≤ y'.stamp)
    (g : BatchGraph V U n) (h : batchGraph f rnd x0 P0 inputs meas = .ok g) :
    BFactor.meas 0 y ∈ g.factors ∧ g.vars[0]? = some x0 ∧ x0.stamp ≠ some y.stamp := by
  obtain ⟨stamps, g1, g2, g3, g4, g5, ps, ms, g6, g7, g8, g9, g10⟩ :=
    C46_graph f hf rnd x0 t0 h0 P0 inputs meas g h _ rfl _ rfl
  have hyu : y ∈ batchUsed StMeas.stamp t0 meas :=
    ((batchUsed_spec _ _ _).2.1 ⟨y, hy, (hold.2 y hy).le⟩ y).2 ⟨hy, (hold.2 y hy).le⟩
  have husub : ∀ u ∈ batchUsed StInp.stamp t0 inputs, u ∈ inputs := by
    intro u hu
    by_cases hex : ∃ a ∈ inputs, t0 ≤ StInp.stamp a
    · exact (((batchUsed_spec _ _ _).2.1 hex u).1 hu).1
    · push Not at hex
      exact (((batchUsed_spec _ _ _).2.2 hex).mem_iff).1 hu
  have hysub : ∀ u ∈ batchUsed StMeas.stamp t0 meas, u ∈ meas := by
    intro u hu
    exact (((batchUsed_spec _ _ _).2.1 ⟨y, hy, (hold.2 y hy).le⟩ u).1 hu).1
  have hys : y.stamp ∈ stamps := (g2 _).2 (Or.inr ⟨y, hyu, hm y hy⟩)
  obtain ⟨i, hil, hi'⟩ := List.getElem_of_mem hyu
  obtain ⟨k, k1, k2⟩ := g10 i y (by rw [List.getElem?_eq_getElem hil, hi'])
  have k3 := k2.exact hys
  have hk : k = 0 := by
    by_contra hne
    obtain ⟨l1, l2⟩ := List.getElem?_eq_some_iff.1 k3
    have hlt := List.pairwise_iff_getElem.1 g1 0 k (by omega) l1 (by omega)
    rw [l2] at hlt
    rcases (g2 _).1 (List.getElem_mem (show 0 < stamps.length by omega)) with ⟨u, hu, e⟩ | ⟨u, hu, e⟩
    · rw [hi u (husub u hu)] at e
      have := hfirst.1 u (husub u hu)
      linarith
    · rw [hm u (hysub u hu)] at e
      have := hfirst.2 u (hysub u hu)
      linarith
  subst hk
  refine ⟨?_, g4, ?_⟩
  · rw [g6]
    simp only [List.cons_append, List.mem_cons, List.mem_append]
    exact Or.inr (Or.inr (List.mem_of_getElem? k1))
  · rw [h0]
    intro e
    have := hold.2 y hy
    rw [Option.some.inj e] at this
    exact lt_irrefl _ this

/-! ### Non-vacuity -/

/-- A one-dimensional process model (`SingleIntegrator`) for the examples. -/
noncomputable def exBatchProc : ProcModel (Vec 2) (Vec 2) 2 :=
  linProcModel (fun _ _ => 1) (fun u dt => dt • u.value) fun _ _ => 1

example : KeepsStamp exBatchProc := fun _ _ _ => rfl

/-- Measurement of the first coordinate. -/
noncomputable def exBatchMeas (t : ℝ) : StMeas (Vec 2) 2 where
  meas := linMeas (m := 1) (fun _ j => if j = 0 then 1 else 0) 1 0 (some t)
  stamp := t
  hstamp := rfl

theorem batchUsed_id {α : Type} (stamp : α → ℝ) (t0 : ℝ) (l : List α) (hs : TimeSorted stamp l)
    (h : ∀ a ∈ l, t0 ≤ stamp a) : batchUsed stamp t0 l = l := by
  classical
  unfold batchUsed dropBefore
  rw [sortByStamp_of_sorted stamp l hs, dropWhile_sorted stamp hs]
  split
  · rw [List.filter_eq_self]
    intro a ha
    simpa using h a ha
  · rfl

/-- The hypotheses of `C46_succeeds` are met by inputs at 0, 1, 2 and a measurement at 1. -/
example : ∃ g, batchGraph exBatchProc id ⟨0, some 0⟩ 1 [⟨0, 0⟩, ⟨1, 1⟩, ⟨0, 2⟩] [exBatchMeas 1] = .ok g := by
  have e1 := batchUsed_id StInp.stamp 0 ([⟨0, 0⟩, ⟨1, 1⟩, ⟨0, 2⟩] : List (StInp (Vec 2))) (by simp [TimeSorted]) (by simp)
  have e2 := batchUsed_id StMeas.stamp 0 [exBatchMeas 1] (by simp [TimeSorted]) (by simp [exBatchMeas])
  refine C46_succeeds exBatchProc (fun _ _ _ => rfl) id _ 0 rfl _ _ _ _ e1.symm _ e2.symm (by simp) (by norm_num) ?_ ?_
  · simp [exBatchMeas]
  · simp [exBatchMeas]

/-- The hypotheses of `C47_late_measurement_raises` are met by inputs at 0, 1 and a measurement at 2. -/
example (o : StateOps (Vec 2) 2) (cfg : ProbCfg) :
    batchSolve o exBatchProc id cfg ⟨0, some 0⟩ 1 [⟨0, 0⟩, ⟨1, 1⟩] [exBatchMeas 2] = .error .indexError := by
  have e1 := batchUsed_id StInp.stamp 0 ([⟨0, 0⟩, ⟨1, 1⟩] : List (StInp (Vec 2))) (by simp [TimeSorted]) (by simp)
  have e2 := batchUsed_id StMeas.stamp 0 [exBatchMeas 2] (by simp [TimeSorted]) (by simp [exBatchMeas])
  refine C47_late_measurement_raises exBatchProc (fun _ _ _ => rfl) id _ 0 rfl _ _ _ _ e1.symm _ e2.symm (by simp)
    (by norm_num) ?_ (exBatchMeas 2) (by simp) ?_ o cfg
  · simp [exBatchMeas]
  · norm_num [exBatchMeas]

/-- The hypotheses of `C72_between_inputs_fails` are met by inputs at 0, 1 and a scalar measurement at 1/2 of a
two-dimensional state. -/
example (o : StateOps (Vec 2) 2) (cfg : ProbCfg) (res : List (St (Vec 2) × DMat)) :
    batchSolve o exBatchProc id cfg ⟨0, some 0⟩ 1 [⟨0, 0⟩, ⟨1, 1⟩] [exBatchMeas (1 / 2)] ≠ .ok res := by
  have e1 := batchUsed_id StInp.stamp 0 ([⟨0, 0⟩, ⟨1, 1⟩] : List (StInp (Vec 2))) (by simp [TimeSorted]) (by simp)
  have e2 := batchUsed_id StMeas.stamp 0 [exBatchMeas (1 / 2)] (by simp [TimeSorted]) (by simp [exBatchMeas])
  refine C72_between_inputs_fails o exBatchProc (fun _ _ _ => rfl) id cfg _ 0 rfl _ _ _ (by simp) (by simp) _ e1.symm
    _ e2.symm (1 / 2) (exBatchMeas (1 / 2)) (by simp) rfl ?_ (Or.inl ⟨⟨0, 0⟩, by simp, by norm_num⟩) ?_ res
  · norm_num
  · simp [exBatchMeas, linMeas]

/-- The hypotheses of `C71_wrong_time` are met by a start at 0, a measurement at 1 and inputs at 1, 2. -/
example : ∃ g, batchGraph exBatchProc id ⟨0, some 0⟩ 1 [⟨0, 1⟩, ⟨1, 2⟩] [exBatchMeas 1] = .ok g ∧
    BFactor.meas 0 (exBatchMeas 1) ∈ g.factors := by
  have e1 := batchUsed_id StInp.stamp 0 ([⟨0, 1⟩, ⟨1, 2⟩] : List (StInp (Vec 2))) (by simp [TimeSorted]) (by simp)
  have e2 := batchUsed_id StMeas.stamp 0 [exBatchMeas 1] (by simp [TimeSorted]) (by simp [exBatchMeas])
  obtain ⟨g, hg⟩ := C46_succeeds exBatchProc (fun _ _ _ => rfl) id ⟨0, some 0⟩ 0 rfl 1 _ _ _ e1.symm _ e2.symm (by simp)
    (by norm_num) (by simp [exBatchMeas]) (by simp [exBatchMeas])
  exact ⟨g, hg, (C71_wrong_time exBatchProc (fun _ _ _ => rfl) id ⟨0, some 0⟩ 0 rfl 1 _ _ (by simp) (by simp)
    (by simp [exBatchMeas]) (exBatchMeas 1) (by simp) (by simp [exBatchMeas]) g hg).1⟩

theorem batchUsed_old {α : Type} (stamp : α → ℝ) (t0 : ℝ) (l : List α) (hs : TimeSorted stamp l)
    (h : ∀ a ∈ l, stamp a < t0) : batchUsed stamp t0 l = l := by
  classical
  unfold batchUsed dropBefore
  rw [sortByStamp_of_sorted stamp l hs, dropWhile_sorted stamp hs]
  split
  · next hx =>
    exfalso
    obtain ⟨a, ha, h'⟩ := (by simpa using hx : ∃ a ∈ l, t0 ≤ stamp a)
    exact absurd h' (not_le.2 (h a ha))
  · rfl

/-- The hypotheses of `C46_two_older_raises` are met by a start at 2 and inputs at 0 and 1. -/
example : batchGraph exBatchProc id ⟨0, some 2⟩ 1 [⟨0, 0⟩, ⟨1, 1⟩] [exBatchMeas 2] = .error .runtimeError := by
  have e1 := batchUsed_old StInp.stamp 2 ([⟨0, 0⟩, ⟨1, 1⟩] : List (StInp (Vec 2))) (by simp [TimeSorted]) (by norm_num)
  have e2 := batchUsed_id StMeas.stamp 2 [exBatchMeas 2] (by simp [TimeSorted]) (by simp [exBatchMeas])
  exact C46_two_older_raises exBatchProc id _ 2 rfl _ _ _ _ e1.symm _ e2.symm (by simp) 0 1
    (.inl ⟨⟨0, 0⟩, by simp, rfl⟩) (.inl ⟨⟨1, 1⟩, by simp, rfl⟩) (by norm_num) (by norm_num)

/-- The hypotheses of `C46_one_older` are met by a start at 1, inputs at 1 and 2, and a single measurement at 1/2. -/
example : ∃ g, batchGraph exBatchProc id ⟨0, some 1⟩ 1 [⟨0, 1⟩, ⟨1, 2⟩] [exBatchMeas (1 / 2)] = .ok g := by
  have e1 := batchUsed_id StInp.stamp 1 ([⟨0, 1⟩, ⟨1, 2⟩] : List (StInp (Vec 2))) (by simp [TimeSorted]) (by norm_num)
  have e2 := batchUsed_old StMeas.stamp 1 [exBatchMeas (1 / 2)] (by simp [TimeSorted]) (by norm_num [exBatchMeas])
  refine C46_one_older exBatchProc (fun _ _ _ => rfl) id _ 1 rfl _ _ _ _ e1.symm _ e2.symm (by simp) (by norm_num) ?_ ?_
  · rintro a b ha (⟨u, hu, rfl⟩ | ⟨y, hy, rfl⟩) hab
    · rcases List.mem_cons.1 hu with rfl | hu
      · norm_num
      · rcases List.mem_cons.1 hu with rfl | hu
        · norm_num
        · cases hu
    · rcases List.mem_cons.1 hy with rfl | hy
      · exfalso
        have hb : (id (exBatchMeas (1 / 2)).stamp : ℝ) = 1 / 2 := rfl
        rw [hb] at hab
        rcases ha with ⟨u, hu, rfl⟩ | ⟨y, hy, rfl⟩
        · rcases List.mem_cons.1 hu with rfl | hu
          · norm_num at hab
          · rcases List.mem_cons.1 hu with rfl | hu
            · norm_num at hab
            · cases hu
        · rcases List.mem_cons.1 hy with rfl | hy
          · exact lt_irrefl _ (hb ▸ hab)
          · cases hy
      · cases hy
  · norm_num [exBatchMeas]

end Verif
