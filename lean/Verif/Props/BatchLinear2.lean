import Verif.Props.BatchLinear

namespace Verif

set_option linter.unusedVariables false
set_option linter.unusedSectionVars false

open Matrix

variable {U : Type} {n : ℕ}

/-! ### The problem of a graph -/

theorem lookup_none {α : Type} {d : List (ℕ × α)} {k : ℕ} (h : ∀ p ∈ d, p.1 ≠ k) : d.lookup k = none := by
  induction d with
  | nil => rfl
  | cons p d ih =>
    obtain ⟨q, a⟩ := p
    rw [lookup_cons_ne _ _ (fun e => h (q, a) (by simp) e.symm)]
    exact ih fun p hp => h p (by simp [hp])

theorem addVariables_fold {S : Type} : ∀ (vs : List S) (k0 : ℕ) (P : Prob ℕ S), (∀ p ∈ P.varsInit, p.1 < k0) →
    (vs.zipIdx k0).foldl (fun P p => P.addVariable p.2 p.1) P =
      { P with varsInit := P.varsInit ++ (vs.zipIdx k0).map fun p => (p.2, p.1) }
  | [], k0, P, h => by simp
  | v :: vs, k0, P, h => by
    rw [List.zipIdx_cons, List.foldl_cons]
    have hd : dictSet P.varsInit k0 v = P.varsInit ++ [(k0, v)] := by
      unfold dictSet
      rw [lookup_none (fun p hp => (h p hp).ne)]
      rfl
    have e : P.addVariable k0 v = { P with varsInit := P.varsInit ++ [(k0, v)] } := by
      unfold Prob.addVariable
      rw [hd]
    show List.foldl _ (P.addVariable k0 v) _ = _
    rw [e, addVariables_fold vs (k0 + 1) _ (by
      intro p hp
      rw [List.mem_append] at hp
      rcases hp with hp | hp
      · exact Nat.lt_succ_of_lt (h p hp)
      · rw [List.mem_singleton] at hp; rw [hp]; exact Nat.lt_succ_self _)]
    simp

theorem addResiduals_fold {K S : Type} [DecidableEq K] : ∀ (rs : List (Residual K S)) (P : Prob K S),
    rs.foldl (fun P r => P.addResidual r l2Loss) P =
      { P with residuals := P.residuals ++ rs, losses := P.losses ++ rs.map fun _ => l2Loss }
  | [], P => by simp
  | r :: rs, P => by
    rw [List.foldl_cons, addResiduals_fold rs]
    simp [Prob.addResidual]

/-- The assignment of the values `X 0`, ..., `X (N - 1)`. -/
noncomputable def assign (N : ℕ) (X : ℕ → Vec n) : List (ℕ × List ℝ) :=
  (List.range N).map fun k => (k, List.ofFn (X k))

theorem assign_lookup {N : ℕ} (X : ℕ → Vec n) {k : ℕ} (h : k < N) : (assign N X).lookup k = some (List.ofFn (X k)) := by
  refine lookup_mem ?_ (List.mem_map.2 ⟨k, List.mem_range.2 h, rfl⟩)
  have : (assign N X).map Prod.fst = List.range N := by
    unfold assign
    rw [List.map_map]
    conv_rhs => rw [← List.map_id (List.range N)]
    rfl
  rw [this]
  exact List.nodup_range

theorem assign_keys (N : ℕ) (X : ℕ → Vec n) : (assign N X).map Prod.fst = List.range N := by
  unfold assign
  rw [List.map_map]
  conv_rhs => rw [← List.map_id (List.range N)]
  rfl

theorem assign_shape (N : ℕ) (X X' : ℕ → Vec n) : SameShape (assign N X) (assign N X') := by
  refine ⟨by rw [assign_keys, assign_keys], ?_⟩
  unfold assign
  rw [List.map_map, List.map_map]
  refine List.map_congr_left fun k _ => ?_
  simp

theorem lookupAll_assign {N : ℕ} (X : ℕ → Vec n) {ks : List ℕ} (h : ∀ k ∈ ks, k < N) :
    lookupAll (assign N X) ks = .ok (ks.map fun k => List.ofFn (X k)) := by
  rw [lookupAll_of fun k hk => ⟨_, assign_lookup X (h k hk)⟩]
  congr 1
  refine List.map_congr_left fun k hk => ?_
  rw [assign_lookup X (h k hk)]
  rfl

variable (A : Inp U → ℝ → Mat n n) (b : Inp U → ℝ → Vec n) (Q : Inp U → ℝ → Mat n n)

/-- A residual of the linear problem that stands for a factor. -/
def StandsFor (τ : ℕ → ℝ) (N : ℕ) (fac : BFactor (Vec n) U n) (r : Residual ℕ (St (Vec n)))
    (r' : Residual ℕ (List ℝ)) : Prop :=
  fac.residual (vecStateOps n) (linProcModel A b Q) = .ok r ∧ ResRel (StampRel τ) r r' ∧
    (∃ (ks : List ℕ) (Js : List DMat) (m : ℕ) (c : ℕ → ℝ), r' = linRes ks Js m c ∧ ks.Nodup ∧
      Js.length = ks.length ∧ (∀ J ∈ Js, J.rows = m ∧ J.cols = n) ∧ (∀ k ∈ ks, k < N)) ∧
    ∀ X : ℕ → Vec n, ∃ err, (∃ xs, lookupAll (assign N X) r'.keys = .ok xs ∧ r'.error xs = .ok err) ∧
      l2Loss.loss (listNorm err) = 1 / 2 * factorCost A b Q τ X fac

theorem standsFor_exists (hQ : ∀ u dt, 0 < dt → (Q u dt).PosDef) (τ : ℕ → ℝ) (N : ℕ) (fac : BFactor (Vec n) U n)
    (hg : GoodFactor τ N fac) : ∃ r r', StandsFor A b Q τ N fac r r' := by
  obtain ⟨r, h1, ks, Js, m, c, h2, h3, h4, h5, h6, h7⟩ := factor_linear A b Q hQ τ N fac hg
  exact ⟨r, linRes ks Js m c, h1, h2, ⟨ks, Js, m, c, rfl, h3, h4, h5, h6⟩,
    fun X => ⟨_, ⟨_, lookupAll_assign X h6, rfl⟩, h7 X⟩⟩

theorem factors_linear (hQ : ∀ u dt, 0 < dt → (Q u dt).PosDef) (τ : ℕ → ℝ) (N : ℕ) :
    ∀ facs : List (BFactor (Vec n) U n), (∀ fac ∈ facs, GoodFactor τ N fac) →
      ∃ rs rs', facs.mapM (BFactor.residual (vecStateOps n) (linProcModel A b Q)) = .ok rs ∧
        List.Forall₂ (ResRel (StampRel τ)) rs rs' ∧
        (∀ r' ∈ rs', ∃ (ks : List ℕ) (Js : List DMat) (m : ℕ) (c : ℕ → ℝ), r' = linRes ks Js m c ∧ ks.Nodup ∧
          Js.length = ks.length ∧ (∀ J ∈ Js, J.rows = m ∧ J.cols = n) ∧ (∀ k ∈ ks, k < N)) ∧
        ∀ X : ℕ → Vec n, totalCost (assign N X) (rs'.zip (rs'.map fun _ => l2Loss)) =
          .ok (1 / 2 * (facs.map (factorCost A b Q τ X)).sum)
  | [], _ => ⟨[], [], rfl, .nil, by simp, fun X => by simp [totalCost]⟩
  | fac :: facs, h => by
    obtain ⟨r, r', h1, h2, h3, h4⟩ := standsFor_exists A b Q hQ τ N fac (h fac (by simp))
    obtain ⟨rs, rs', g1, g2, g3, g4⟩ := factors_linear hQ τ N facs fun f hf => h f (by simp [hf])
    refine ⟨r :: rs, r' :: rs', ?_, .cons h2 g2, ?_, fun X => ?_⟩
    · rw [List.mapM_cons, h1]
      show (facs.mapM (BFactor.residual (vecStateOps n) (linProcModel A b Q)) >>= _) = _
      rw [g1]
      rfl
    · intro q hq
      rcases List.mem_cons.1 hq with rfl | hq
      · exact h3
      · exact g3 q hq
    · obtain ⟨err, ⟨xs, k1, k2⟩, k3⟩ := h4 X
      rw [List.map_cons, List.zip_cons_cons]
      unfold totalCost
      rw [k1]
      show (r'.error xs >>= _) = _
      rw [k2]
      show (totalCost _ _ >>= _) = _
      rw [g4 X]
      show Except.ok (l2Loss.loss (listNorm err) + _) = _
      rw [k3, List.map_cons, List.sum_cons]
      congr 1
      ring

/-- The values of a list of variables. -/
noncomputable def valuesOf (vs : List (St (Vec n))) (k : ℕ) : Vec n := (vs.getD k ⟨0, none⟩).value

theorem vars_rel (τ : ℕ → ℝ) : ∀ (vs : List (St (Vec n))) (k0 : ℕ),
    (∀ (i : ℕ) (x : St (Vec n)), vs[i]? = some x → x.stamp = some (τ (k0 + i))) →
    VarsRel (StampRel τ) ((vs.zipIdx k0).map fun p => (p.2, p.1))
      ((List.range vs.length).map fun i => (k0 + i, List.ofFn (valuesOf vs i)))
  | [], k0, h => .nil
  | v :: vs, k0, h => by
    rw [List.zipIdx_cons, List.map_cons, List.length_cons, List.range_succ_eq_map, List.map_cons, List.map_map]
    refine .cons ⟨rfl, h 0 v rfl, rfl⟩ ?_
    have ih := vars_rel τ vs (k0 + 1) (fun i x hx => by
      have := h (i + 1) x (by simpa using hx)
      rw [this]
      congr 2
      omega)
    have e : (List.range vs.length).map (fun i => (k0 + 1 + i, List.ofFn (valuesOf vs i))) =
        (List.range vs.length).map ((fun i => (k0 + i, List.ofFn (valuesOf (v :: vs) i))) ∘ Nat.succ) := by
      refine List.map_congr_left fun i _ => ?_
      show (k0 + 1 + i, _) = (k0 + (i + 1), _)
      rw [show k0 + 1 + i = k0 + (i + 1) by omega]
      rfl
    rw [e] at ih
    exact ih

/-- **The problem that `BatchEstimator` builds from linear models** corresponds to a linear least squares problem whose
cost is half the sum of the costs of the factors. -/
theorem graph_linear (hQ : ∀ u dt, 0 < dt → (Q u dt).PosDef) (τ : ℕ → ℝ) (cfg : ProbCfg) (g : BatchGraph (Vec n) U n)
    (hs : ∀ (k : ℕ) (x : St (Vec n)), g.vars[k]? = some x → x.stamp = some (τ k))
    (hf : ∀ fac ∈ g.factors, GoodFactor τ g.vars.length fac) :
    ∃ (P : Prob ℕ (St (Vec n))) (P' : Prob ℕ (List ℝ)), g.problem (vecStateOps n) (linProcModel A b Q) cfg = .ok P ∧
      LinearProblem P' ∧ ProbRel (StampRel τ) P P' ∧ P'.cfg = cfg ∧ P'.cov = none ∧ P'.constKeys = [] ∧
      P'.varSlices = [] ∧ P'.varsInit = assign g.vars.length (valuesOf g.vars) ∧
      ∀ X : ℕ → Vec n, totalCost (assign g.vars.length X) (P'.residuals.zip P'.losses) =
          .ok (1 / 2 * (g.factors.map (factorCost A b Q τ X)).sum) := by
  obtain ⟨rs, rs', h1, h2, h3, h4⟩ := factors_linear A b Q hQ τ g.vars.length g.factors hf
  have hv := vars_rel τ g.vars 0 (fun i x hx => by rw [Nat.zero_add]; exact hs i x hx)
  simp only [Nat.zero_add] at hv
  refine ⟨{ (Prob.new cfg : Prob ℕ (St (Vec n))) with
      varsInit := g.vars.zipIdx.map fun p => (p.2, p.1), residuals := rs, losses := rs.map fun _ => l2Loss },
    { (Prob.new cfg : Prob ℕ (List ℝ)) with
      varsInit := assign g.vars.length (valuesOf g.vars), residuals := rs', losses := rs'.map fun _ => l2Loss },
    ?_, ⟨?_, rfl, ?_⟩, ⟨rfl, hv, rfl, h2, ?_, .nil, rfl, rfl, rfl, rfl, rfl, rfl⟩, rfl, rfl, rfl, rfl, rfl, h4⟩
  · unfold BatchGraph.problem
    rw [h1]
    show Except.ok _ = _
    rw [addVariables_fold _ _ _ (by simp [Prob.new]), addResiduals_fold]
    simp [Prob.new]
  · show ((assign g.vars.length (valuesOf g.vars)).map Prod.fst).Nodup
    rw [assign_keys]
    exact List.nodup_range
  · intro r hr
    obtain ⟨ks, Js, m, c, q1, q2, q3, q4, q5⟩ := h3 r hr
    refine ⟨ks, Js, m, c, q1, q2, q3, fun t k J hk hJ => ?_⟩
    obtain ⟨w1, w2⟩ := q4 J (List.mem_of_getElem? hJ)
    exact ⟨w1, _, assign_lookup _ (q5 k (List.mem_of_getElem? hk)), by rw [w2]; simp⟩
  · show rs.map _ = rs'.map _
    rw [List.map_const', List.map_const', h2.length_eq]

end Verif
