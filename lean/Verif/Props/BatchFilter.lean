import Verif.Props.BatchMarginal

/-!
C89 and C90: with linear models, `BatchEstimator.solve` returns the exact marginals of the batch problem; at the last
input but one they are what `run_filter` records.
-/

namespace Verif

set_option linter.unusedVariables false
set_option linter.unusedSectionVars false

open Matrix

variable {U : Type} {n : ℕ}

/-! ### Results -/

theorem covBlock_cached {S : Type} {P : Prob ℕ S} {A : SqMat} (hi : P.info = some A) (hd : A.2.det ≠ 0)
    (hc : P.cov = none ∨ P.cov = some ⟨A.1, A.2⁻¹⟩) {k : ℕ} {s : Slice} (hs : P.varSlices.lookup k = some s) :
    P.getCovarianceBlock k k =
      .ok (some (SqMat.block ⟨A.1, A.2⁻¹⟩ s s), { P with cov := some ⟨A.1, A.2⁻¹⟩ }) := by
  rcases hc with hc | hc
  · exact C41_first_query P A hi hd hc k k s s hs hs
  · unfold Prob.getCovarianceBlock
    simp only [hc, Option.isNone_some, Bool.false_eq_true, if_false, hs]
    congr 2
    rw [← hc]

theorem batchResults_eq {V : Type} {A : SqMat} (hd : A.2.det ≠ 0) : ∀ (l : List (ℕ × St V)) (P : Prob ℕ (St V)),
    P.info = some A → (P.cov = none ∨ P.cov = some ⟨A.1, A.2⁻¹⟩) → (∀ p ∈ l, ∃ s, P.varSlices.lookup p.1 = some s) →
    batchResults P l = .ok (l.map fun p => (p.2, SqMat.block ⟨A.1, A.2⁻¹⟩ ((P.varSlices.lookup p.1).getD ⟨0, 0⟩)
      ((P.varSlices.lookup p.1).getD ⟨0, 0⟩)))
  | [], P, hi, hc, hs => rfl
  | (k, x) :: l, P, hi, hc, hs => by
    obtain ⟨s, h⟩ := hs (k, x) (by simp)
    have ih := batchResults_eq hd l { P with cov := some ⟨A.1, A.2⁻¹⟩ } hi (.inr rfl) fun p hp => hs p (by simp [hp])
    unfold batchResults
    rw [covBlock_cached hi hd hc h]
    show (batchResults { P with cov := some ⟨A.1, A.2⁻¹⟩ } l >>= _) = _
    rw [ih]
    have h' : List.lookup k P.varSlices = some s := h
    rw [List.map_cons, h']
    rfl

variable (A : Inp U → ℝ → Mat n n) (b : Inp U → ℝ → Vec n) (Q : Inp U → ℝ → Mat n n)

/-- An array holds a square matrix. -/
def Holds (C : DMat) (G : Mat n n) : Prop := C.rows = n ∧ C.cols = n ∧ ∀ i j : Fin n, C.get i j = G i j

theorem block_holds {N k : ℕ} (hk : k < N) (M : Mat (N * n) (N * n)) :
    Holds (SqMat.block ⟨N * n, M⟩ ⟨k * n, k * n + n⟩ ⟨k * n, k * n + n⟩)
      (M.submatrix (fun i : Fin n => ⟨k * n + i, block_lt hk i⟩) fun i : Fin n => ⟨k * n + i, block_lt hk i⟩) := by
  have h1 : k * n + n ≤ N * n := by
    have : (k + 1) * n ≤ N * n := Nat.mul_le_mul_right n hk
    rwa [Nat.add_mul, Nat.one_mul] at this
  have hl : Slice.len ⟨k * n, k * n + n⟩ (N * n) = n := by
    show min (k * n + n) (N * n) - min (k * n) (N * n) = n
    omega
  refine ⟨hl, hl, fun i j => ?_⟩
  have hm : min (k * n) (N * n) = k * n := by omega
  show (if h : min (k * n) (N * n) + i.1 < N * n ∧ min (k * n) (N * n) + j.1 < N * n then _ else _) = _
  rw [dif_pos (by rw [hm]; exact ⟨block_lt hk i, block_lt hk j⟩)]
  simp only [hm]
  rfl

/-- `r` and `G` are mean and covariance of the marginal of the cost `F` at variable `k`. -/
def MarginalAt (F : (ℕ → Vec n) → ℝ) (k : ℕ) (x : Vec n) (G : Mat n n) : Prop :=
  G.PosDef ∧ ∃ c : ℝ, ∀ v : Vec n, IsLeast {J | ∃ X : ℕ → Vec n, X k = v ∧ J = F X} (c + mahal G (v - x))

theorem varsRel_get {R : ℕ → St (Vec n) → List ℝ → Prop} {N : ℕ} {v : List (ℕ × St (Vec n))} {X : ℕ → Vec n}
    (h : VarsRel R v (assign N X)) : v.length = N ∧ ∀ (k : ℕ) (p : ℕ × St (Vec n)), v[k]? = some p →
      k < N ∧ p.1 = k ∧ R k p.2 (List.ofFn (X k)) := by
  have hl : v.length = N := by
    have := h.length_eq
    rw [this]
    simp [assign]
  refine ⟨hl, fun k p hp => ?_⟩
  have hk : k < v.length := by
    by_contra hc
    rw [List.getElem?_eq_none (by omega)] at hp
    cases hp
  have h2 := (List.forall₂_iff_get.1 h).2 k hk (by simp [assign]; omega)
  rw [List.getElem?_eq_getElem hk] at hp
  obtain rfl := Option.some.inj hp
  simp only [List.get_eq_getElem] at h2
  have e : (assign N X)[k]'(by simp [assign]; omega) = (k, List.ofFn (X k)) := by simp [assign]
  rw [e] at h2
  exact ⟨by omega, h2.1, by have h3 := h2.2; rw [h2.1] at h3; exact h3⟩

theorem statesRel_flip {S S' : Type} {R : ℕ → S → S' → Prop} : ∀ {ks : List ℕ} {xs : List S} {xs' : List S'},
    StatesRel (fun k (x' : S') (x : S) => R k x x') ks xs' xs → StatesRel R ks xs xs'
  | [], [], [], h => trivial
  | k :: ks, x :: xs, x' :: xs', h => ⟨h.1, statesRel_flip h.2⟩
  | [], _ :: _, [], h => h.elim
  | [], _ :: _, _ :: _, h => h.elim
  | [], [], _ :: _, h => h.elim
  | _ :: _, [], [], h => h.elim
  | _ :: _, [], _ :: _, h => h.elim
  | _ :: _, _ :: _, [], h => h.elim

/-- Solving a graph of good factors that determine all variables: the results are the marginals of the sum of the
factor costs. -/
theorem graph_marginals (hQ : ∀ u dt, 0 < dt → (Q u dt).PosDef) (τ : ℕ → ℝ) (cfg : ProbCfg) (hs : cfg.solver = "GN")
    (hit : 0 < cfg.maxIters) (hn : 0 < n) (g : BatchGraph (Vec n) U n) (hN : 0 < g.vars.length)
    (hst : ∀ (k : ℕ) (x : St (Vec n)), g.vars[k]? = some x → x.stamp = some (τ k))
    (hf : ∀ fac ∈ g.factors, GoodFactor τ g.vars.length fac)
    (hdet : ∀ (X0 D : ℕ → Vec n), (∃ K, ∀ s : ℝ, (g.factors.map (factorCost A b Q τ fun k => X0 k + s • D k)).sum ≤ K) →
      ∀ k < g.vars.length, D k = 0) :
    ∃ P P' res, g.problem (vecStateOps n) (linProcModel A b Q) cfg = .ok P ∧
      P.solve (vecStateOps n).varOps = .ok P' ∧ batchResults P' P'.vars = .ok res ∧ res.length = g.vars.length ∧
      ∀ (k : ℕ) (x : St (Vec n)) (C : DMat), res[k]? = some (x, C) → x.stamp = some (τ k) ∧
        ∃ G, Holds C G ∧ MarginalAt (fun X => (g.factors.map (factorCost A b Q τ X)).sum) k x.value G := by
  obtain ⟨P, L, h1, h2, h3, h4, h5, h6, h7, h8, h9⟩ := graph_linear A b Q hQ τ cfg g hst hf
  obtain ⟨L', Xs, M, k1, k2, k3, k4, k5, k6, k7⟩ := stacked_solve h2 (by rw [h4]; exact hs) (by rw [h4]; exact hit)
    h6 h8 hn hN h9 (fun D => hdet _ D)
  have h3' : ProbRel (fun k (x : List ℝ) (x' : St (Vec n)) => StampRel τ k x' x) L P := by
    refine ⟨h3.cfg.symm, ?_, h3.constKeys.symm, ?_, h3.losses.symm, ?_, h3.varSlices.symm, h3.resSlices.symm,
      h3.sizeErr.symm, h3.sizeState.symm, h3.info.symm, h3.cov.symm⟩
    · exact h3.varsInit.flip.imp fun p p' h => ⟨h.1.symm, by rw [← h.1]; exact h.2⟩
    · refine h3.residuals.flip.imp fun r r' h => ⟨h.keys.symm, ?_, ?_⟩
      · intro xs xs' hx
        rw [h.error xs' xs (statesRel_flip (by rw [h.keys]; exact hx))]
      · intro xs xs' fl hx hl
        rw [h.jacobians xs' xs fl (statesRel_flip (by rw [h.keys]; exact hx)) (by rw [h.keys]; exact hl)]
    · exact h3.vars.flip.imp fun p p' h => ⟨h.1.symm, by rw [← h.1]; exact h.2⟩
  obtain ⟨P', m1, m2⟩ := solve_sim (ops_stampRel_symm τ) h3' (by rw [h4]; exact hs) k1
  have hvr : VarsRel (StampRel τ) P'.vars (assign g.vars.length Xs) := by
    rw [← k2]
    exact m2.vars.flip.imp fun p p' h => ⟨h.1.symm, by rw [← h.1]; exact h.2⟩
  obtain ⟨v1, v2⟩ := varsRel_get hvr
  have hinfo : P'.info = some ⟨g.vars.length * n, M⟩ := by rw [← m2.info]; exact k4
  have hcov : P'.cov = none := by rw [← m2.cov, k5, h5]
  have hsl : ∀ k < g.vars.length, P'.varSlices.lookup k = some ⟨k * n, k * n + n⟩ := by
    rw [← m2.varSlices]; exact k6
  have hres := batchResults_eq (A := ⟨g.vars.length * n, M⟩) (pd_det k3) P'.vars P' hinfo (.inl hcov) (by
    intro p hp
    obtain ⟨k, hk⟩ := List.getElem?_of_mem hp
    obtain ⟨q1, q2, q3⟩ := v2 k p hk
    exact ⟨_, by rw [q2]; exact hsl k q1⟩)
  refine ⟨P, P', _, h1, m1, hres, by simpa using v1, fun k x C hk => ?_⟩
  rw [List.getElem?_map] at hk
  cases hp : P'.vars[k]? with
  | none => rw [hp] at hk; cases hk
  | some p =>
    rw [hp] at hk
    simp only [Option.map_some, Option.some.injEq, Prod.mk.injEq] at hk
    obtain ⟨rfl, rfl⟩ := hk
    obtain ⟨q1, q2, q3, q4⟩ := v2 k p hp
    have hxv : p.2.value = Xs k := (List.ofFn_injective q4).symm
    refine ⟨q3, (M⁻¹).submatrix (fun i : Fin n => ⟨k * n + i, block_lt q1 i⟩) fun i : Fin n => ⟨k * n + i, block_lt q1 i⟩,
      ?_, ?_⟩
    · rw [q2, hsl k q1]
      exact block_holds q1 M⁻¹
    · obtain ⟨w1, w2, w3⟩ := form_marginal k3 (fun i : Fin n => (⟨k * n + i, block_lt q1 i⟩ : Fin (g.vars.length * n)))
        (fun i j hij => by
          have := congrArg Fin.val hij
          simp only at this
          exact Fin.ext (by omega))
      refine ⟨w1, (g.factors.map (factorCost A b Q τ Xs)).sum, fun v => ⟨?_, ?_⟩⟩
      · obtain ⟨δ, d1, d2⟩ := w3 (v - p.2.value)
        refine ⟨fun k => Xs k + blockOf δ k, ?_, ?_⟩
        · have : (blockOf δ k : Vec n) = v - p.2.value := by
            rw [← d1]
            funext i
            exact blockOf_apply q1 δ i
          show Xs k + blockOf δ k = v
          rw [this, hxv]
          abel
        · rw [← d2]
          exact (k7 δ).symm
      · rintro J ⟨X, hX, rfl⟩
        have e : (g.factors.map (factorCost A b Q τ X)).sum = (g.factors.map (factorCost A b Q τ fun k => Xs k +
            blockOf (stackOf g.vars.length fun k => X k - Xs k) k)).sum := by
          have t1 := h9 X
          rw [assign_congr (X' := fun k => Xs k + blockOf (stackOf g.vars.length fun k => X k - Xs k) k) (fun k hk => by
            rw [blockOf_stackOf hk]; abel), h9] at t1
          have := Except.ok.inj t1
          linarith
        show _ ≤ (g.factors.map (factorCost A b Q τ X)).sum
        rw [e, k7]
        have hw := w2 (stackOf g.vars.length fun k => X k - Xs k)
        have e2 : (fun i : Fin n => stackOf g.vars.length (fun k => X k - Xs k) ⟨k * n + i, block_lt q1 i⟩) =
            v - p.2.value := by
          have := blockOf_stackOf (n := n) q1 fun k => X k - Xs k
          rw [hxv, ← hX, ← this]
          funext i
          exact (blockOf_apply q1 _ i).symm
        rw [e2] at hw
        linarith

end Verif
