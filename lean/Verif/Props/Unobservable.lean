import Verif.Props.Assembly
import Verif.Props.Problem
import Mathlib.LinearAlgebra.FiniteDimensional.Lemmas
import Mathlib.LinearAlgebra.Matrix.ToLin
import Mathlib.LinearAlgebra.Matrix.NonsingularInverse
import Mathlib.LinearAlgebra.Matrix.Nondegenerate

/-!
Variables that too few residuals touch make the normal equations singular (`navlie/batch/problem.py`; C72).
-/

namespace Verif

set_option linter.unusedVariables false
set_option linter.unusedSectionVars false

open Matrix

variable {K S : Type} [DecidableEq K]

/-- Sparsity: a row of `H` has entries only in the columns of the keys of its residual. -/
theorem H_sparse (o : VarOps S) (P P1 : Prob K S) (h : P.started o = .ok P1)
    (vars : List (K × S)) (L : Lin) (hL : P1.linearize vars = .ok L)
    (i : ℕ) (r : Residual K S) (hi : P.residuals[i]? = some r) (s : Slice) (hs : P1.resSlices[i]? = some s)
    (q : Fin L.m) (hq : s.start ≤ (q : ℕ) ∧ (q : ℕ) < s.stop) (p : Fin L.n)
    (hp : ∀ k ∈ r.keys, ∀ cs, P1.varSlices.lookup k = some cs → ¬ (cs.start ≤ (p : ℕ) ∧ (p : ℕ) < cs.stop)) :
    L.H q p = 0 := by
  obtain ⟨e1, e2, e3, e4, e5, e6, -, -⟩ := started_fields h
  obtain ⟨rows1, rows2, rows3, rows4, rows5, rows6⟩ := C37_rows o P P1 h
  have hle : ∀ (j : ℕ) (s : Slice), P1.resSlices[j]? = some s → s.stop ≤ P1.sizeErr := by
    obtain ⟨hr, -, -⟩ := started_slices h
    obtain ⟨sizes, ⟨hl, hs⟩, hlen, htot, hsl⟩ := rowSlices_spec hr
    simp only [Nat.zero_add] at htot hsl
    intro j s hj
    have hjl : j < P.residuals.length := rows1 ▸ (List.getElem?_eq_some_iff.1 hj).1
    rw [hsl j hjl] at hj
    cases hj
    show pre _ _ ≤ _
    rw [htot]; exact pre_le_sum _ _
  have hdis : ∀ (i j : ℕ) (s s' : Slice), i ≠ j → P1.resSlices[i]? = some s → P1.resSlices[j]? = some s' →
      ∀ q, ¬ (s.start ≤ q ∧ q < s.stop ∧ s'.start ≤ q ∧ q < s'.stop) := by
    intro i j s s' hij hs hs' q ⟨q1, q2, q3, q4⟩
    obtain ⟨i0, -, huni⟩ := rows6 q (lt_of_lt_of_le q2 (hle i s hs))
    exact hij ((huni i ⟨s, hs, q1, q2⟩).trans (huni j ⟨s', hs', q3, q4⟩).symm)
  unfold Prob.linearize at hL
  obtain ⟨a, hA, hL⟩ := bind_ok hL
  cases hL
  show a.H.get q p = 0
  by_cases hz : i < (P1.residuals.zip P1.losses).length
  · obtain ⟨⟨r', ls⟩, hx⟩ : ∃ x, (P1.residuals.zip P1.losses)[i]? = some x := ⟨_, List.getElem?_eq_getElem hz⟩
    have hr' : r' = r := by
      have := (List.getElem?_zip_eq_some.1 hx).1
      rw [e4, hi] at this
      exact (Option.some.inj this).symm
    subst hr'
    obtain ⟨xs, err, jacs, e0, a1, H0, H1, g1, g2, g3, g4, g5, g6, g7, g8⟩ := asmLoop_residual hA hdis i r' ls hx s hs
    obtain ⟨-, f2, f3⟩ := g8 q hq.1 hq.2
    rw [f2, (placeJacs_frame g5).2.2.2 q p, f3]
    · rfl
    · rintro ⟨t, k, J, cs, t1, t2, t3, t4⟩
      exact hp k (List.mem_of_getElem? t1) cs t3 t4
  · rw [(((asmLoop_frame hA).2.2 q) (fun j s' _ hj hs' hin => ?_)).2 p]
    · rfl
    · exact hdis i j s s' (by omega) hs hs' q ⟨hq.1, hq.2, hin.1, hin.2⟩

theorem nat_sum_map_range {α : Type} (f : α → ℕ) : ∀ l : List α,
    (l.map f).sum = ∑ j ∈ Finset.range l.length, (l[j]?).elim 0 f
  | [] => by simp
  | x :: l => by
    rw [List.map_cons, List.sum_cons, List.length_cons, Finset.sum_range_succ', nat_sum_map_range f l, add_comm]
    rfl

/-- The number of rows of a residual at the given variables (0 if it cannot be evaluated). -/
def rowsOf (vars : List (K × S)) (r : Residual K S) : ℕ :=
  match lookupAll vars r.keys with
  | .error _ => 0
  | .ok xs => match r.error xs with
    | .error _ => 0
    | .ok e => e.length

theorem rowsOf_eq {vars : List (K × S)} {r : Residual K S} {xs : List S} {e : List ℝ}
    (h1 : lookupAll vars r.keys = .ok xs) (h2 : r.error xs = .ok e) : rowsOf vars r = e.length := by
  unfold rowsOf
  rw [h1]
  simp only
  rw [h2]

/-- A wide matrix has a nonzero vector in its kernel. -/
theorem wide_kernel {ι κ : Type} [Fintype ι] [Fintype κ] [DecidableEq κ] (A : Matrix ι κ ℝ)
    (h : Fintype.card ι < Fintype.card κ) : ∃ v : κ → ℝ, v ≠ 0 ∧ A *ᵥ v = 0 := by
  have hk : LinearMap.ker (Matrix.mulVecLin A) ≠ ⊥ := by
    apply LinearMap.ker_ne_bot_of_finrank_lt
    simpa using h
  obtain ⟨v, hv, hne⟩ := (Submodule.ne_bot_iff _).1 hk
  exact ⟨v, hne, by simpa using hv⟩

/-- If the residuals that touch a variable have, together, fewer rows than the variable has degrees of freedom, the
matrix of the normal equations is singular at every linearization point. (Problems without constant variables.) -/
theorem thin_singular (o : VarOps S) (P P1 : Prob K S) (h : P.started o = .ok P1)
    (hn : (P.varsInit.map Prod.fst).Nodup) (vars : List (K × S)) (L : Lin) (hL : P1.linearize vars = .ok L)
    (k : K) (x : S) (hk : (k, x) ∈ P.varsInit) (hconst : P.constKeys = [])
    (hthin : (P.residuals.map fun r => if k ∈ r.keys then rowsOf P.varsInit r else 0).sum < o.dof x) :
    L.A.det = 0 := by
  classical
  obtain ⟨hrs, hc1, hc2⟩ := started_slices h
  obtain ⟨sizes, ⟨hl, hs⟩, hlen, htot, hsl⟩ := rowSlices_spec hrs
  simp only [Nat.zero_add] at htot hsl
  obtain ⟨rows1, rows2, rows3, rows4, rows5, rows6⟩ := C37_rows o P P1 h
  obtain ⟨cols1, cols2, cols3⟩ := C37_columns o P P1 h hn
  obtain ⟨hm, hnn⟩ := linearize_shape hL
  have hkf : (k, x) ∈ freeVars P.constKeys P.varsInit := by
    unfold freeVars
    rw [List.mem_filter]
    exact ⟨hk, by simp [hconst]⟩
  obtain ⟨j, hj, hjk⟩ := List.getElem_of_mem hkf
  have hj' : (freeVars P.constKeys P.varsInit)[j]? = some (k, x) := by rw [List.getElem?_eq_getElem hj, hjk]
  obtain ⟨cs, c1, c2, -, -⟩ := cols1 j k x hj'
  -- the slice of the variable lies in the columns
  have hcs : cs.stop ≤ L.n := by
    obtain ⟨d1, d2⟩ := colSlices_spec (o := o) (const := P.constKeys) P.varsInit 0 P.varSlices hn
    simp only [Nat.zero_add] at d1 d2
    have := d2 j k x hj'
    rw [← hc1, c1] at this
    cases this
    rw [hnn, hc2, d1]
    exact pre_le_sum _ _
  -- the rows that touch the variable
  let T : Finset ℕ := (Finset.range P.residuals.length).filter fun i => ∃ r, P.residuals[i]? = some r ∧ k ∈ r.keys
  let R : Finset ℕ := T.biUnion fun i => Finset.Ico (pre sizes i) (pre sizes (i + 1))
  have hR : R.card < o.dof x := by
    refine lt_of_le_of_lt ?_ hthin
    refine Finset.card_biUnion_le.trans ?_
    rw [nat_sum_map_range, Finset.sum_filter]
    refine Finset.sum_le_sum fun i hi => ?_
    have hil : i < P.residuals.length := Finset.mem_range.1 hi
    obtain ⟨xs, e, g1, g2, g3⟩ := hs i _ (List.getElem?_eq_getElem hil)
    obtain ⟨g4, g5⟩ := List.getElem?_eq_some_iff.1 g3
    rw [List.getElem?_eq_getElem hil]
    show _ ≤ if k ∈ (P.residuals[i]).keys then _ else _
    by_cases hkr : k ∈ (P.residuals[i]).keys
    · rw [if_pos hkr, if_pos ⟨_, rfl, hkr⟩, Nat.card_Ico, pre_succ sizes i g4, g5, Nat.add_sub_cancel_left,
        rowsOf_eq g1 g2]
    · rw [if_neg hkr, if_neg]
      rintro ⟨r, hr, hr'⟩
      cases hr
      exact hkr hr'
  -- a nonzero vector of the variable's columns that those rows do not see
  let B : Matrix R (Fin (o.dof x)) ℝ := fun q c =>
    if hq : (q : ℕ) < L.m then L.H ⟨q, hq⟩ ⟨cs.start + c, by have := c.2; omega⟩ else 0
  obtain ⟨v, hv0, hv⟩ := wide_kernel B (by simpa using hR)
  let w : Vec L.n := fun p => if hp : cs.start ≤ (p : ℕ) ∧ (p : ℕ) < cs.stop then v ⟨p - cs.start, by omega⟩ else 0
  have hw0 : w ≠ 0 := by
    intro hw
    apply hv0
    funext c
    have := congrFun hw ⟨cs.start + c, by have := c.2; omega⟩
    have hc := c.2
    simp only [w, Pi.zero_apply] at this
    rw [dif_pos ⟨by omega, by omega⟩] at this
    simp only [Nat.add_sub_cancel_left] at this
    exact this
  have hHw : L.H *ᵥ w = 0 := by
    funext q
    show ∑ p, L.H q p * w p = 0
    obtain ⟨i, ⟨s, hsi, hq1, hq2⟩, -⟩ := rows6 q (by have := q.2; omega)
    have hil : i < P.residuals.length := rows1 ▸ (List.getElem?_eq_some_iff.1 hsi).1
    have hss := hsl i hil
    rw [hsi] at hss
    cases hss
    by_cases hkr : k ∈ (P.residuals[i]).keys
    · have hqR : (q : ℕ) ∈ R := by
        refine Finset.mem_biUnion.2 ⟨i, Finset.mem_filter.2 ⟨Finset.mem_range.2 hil, _, List.getElem?_eq_getElem hil, hkr⟩,
          Finset.mem_Ico.2 ⟨hq1, hq2⟩⟩
      have hB := congrFun hv ⟨q, hqR⟩
      simp only [mulVec, dotProduct, Pi.zero_apply] at hB
      rw [← hB]
      symm
      refine Finset.sum_of_injOn (fun c : Fin (o.dof x) => (⟨cs.start + c, by have := c.2; omega⟩ : Fin L.n)) ?_ ?_ ?_ ?_
      · intro a _ b _ hab
        simp only [Fin.mk.injEq] at hab
        exact Fin.ext (by omega)
      · intro a _; exact Finset.mem_coe.2 (Finset.mem_univ _)
      · intro p _ hp
        have : ¬ (cs.start ≤ (p : ℕ) ∧ (p : ℕ) < cs.stop) := by
          intro hin
          apply hp
          refine ⟨⟨p - cs.start, by omega⟩, Finset.mem_coe.2 (Finset.mem_univ _), Fin.ext ?_⟩
          simp only
          omega
        simp only [w]
        rw [dif_neg this, mul_zero]
      · intro c _
        have hc := c.2
        simp only [B, w]
        rw [dif_pos q.2, dif_pos ⟨by omega, by omega⟩]
        simp only [Nat.add_sub_cancel_left]
    · refine Finset.sum_eq_zero fun p _ => ?_
      by_cases hin : cs.start ≤ (p : ℕ) ∧ (p : ℕ) < cs.stop
      · rw [H_sparse o P P1 h vars L hL i _ (List.getElem?_eq_getElem hil) _ hsi q ⟨hq1, hq2⟩ p, zero_mul]
        intro k' hk' cs' hcs' hin'
        have hkk : k' ≠ k := by rintro rfl; exact hkr hk'
        -- `k'` owns the column too
        obtain ⟨xs', e', -, g1, -⟩ := rows2 i _ (List.getElem?_eq_getElem hil)
        have hmem := lookupAll_mem g1 k' hk'
        obtain ⟨⟨k'', x'⟩, hp', rfl⟩ := List.mem_map.1 hmem
        have hpn : (p : ℕ) < P1.sizeState := by have := p.2; omega
        obtain ⟨k0, -, huni⟩ := cols3 p hpn
        have hf' : (k'', x') ∈ freeVars P.constKeys P.varsInit := by
          unfold freeVars
          rw [List.mem_filter]
          exact ⟨hp', by simp [hconst]⟩
        exact hkk ((huni _ ⟨⟨x', hf'⟩, cs', hcs', hin'⟩).trans (huni _ ⟨⟨x, hkf⟩, cs, c1, hin⟩).symm)
      · simp only [w]
        rw [dif_neg hin, mul_zero]
  have hAw : L.A *ᵥ w = 0 := by
    unfold Lin.A
    rw [← Matrix.mulVec_mulVec, hHw, Matrix.mulVec_zero]
  exact Matrix.exists_mulVec_eq_zero_iff.1 ⟨w, hw0, hAw⟩

/-- The information matrix that a solver leaves is the matrix of the normal equations at some linearization. -/
theorem solve_info (o : VarOps S) (P P' : Prob K S) (h : P.solve o = .ok P') :
    ∃ P1, P.started o = .ok P1 ∧ P'.varSlices = P1.varSlices ∧
      (P'.info = P.info ∨ ∃ vars L, P1.linearize vars = .ok L ∧ P'.info = some ⟨L.n, L.A⟩) := by
  unfold Prob.solve at h
  obtain ⟨P1, h1, h⟩ := bind_ok h
  obtain ⟨-, -, -, -, -, -, e7, -⟩ := started_fields h1
  refine ⟨P1, h1, ?_⟩
  split at h
  · unfold solveGN at h
    obtain ⟨L, h2, h⟩ := bind_ok h
    obtain ⟨s, h3, h⟩ := bind_ok h
    obtain ⟨Lf, h4, h⟩ := bind_ok h
    have hinv := iterLoop_inv (fun s => (∃ v, P1.linearize v = .ok s.lin) ∧
        (∀ A, s.info = some A → ∃ v L, P1.linearize v = .ok L ∧ A = ⟨L.n, L.A⟩)) (by
      rintro s r ⟨⟨v, hv⟩, hi⟩ hr
      unfold gnStep at hr
      split at hr
      · cases hr; exact ⟨⟨v, hv⟩, hi⟩
      · obtain ⟨δ, q1, hr⟩ := bind_ok hr
        obtain ⟨v', q2, hr⟩ := bind_ok hr
        obtain ⟨L', q3, hr⟩ := bind_ok hr
        obtain ⟨g, q4, hr⟩ := bind_ok hr
        cases hr
        exact ⟨⟨v', q3⟩, fun A hA => ⟨v, s.lin, hv, by simpa using hA.symm⟩⟩) _ _ _ ⟨⟨_, h2⟩, by simp⟩ h3
    split at h
    · cases h
    · rename_i A hA
      cases h
      obtain ⟨v, L', q1, q2⟩ := hinv.2 A hA
      exact ⟨rfl, Or.inr ⟨v, L', q1, by rw [q2]⟩⟩
  · split at h
    · obtain ⟨L, mx, s, h2, h3, h4, -, Lf, h5, rfl⟩ := solveLM_ok h
      have hinv := iterLoop_inv (fun s => ∃ v L, P1.linearize v = .ok L ∧ s.info = some ⟨L.n, L.A⟩) (by
        rintro s r ⟨v, Lv, hv, hi⟩ hr
        unfold lmStep at hr
        obtain ⟨δ, q1, hr⟩ := bind_ok hr
        split at hr
        · cases hr; exact ⟨v, Lv, hv, hi⟩
        · obtain ⟨v', q2, hr⟩ := bind_ok hr
          obtain ⟨L', q3, hr⟩ := bind_ok hr
          obtain ⟨g, q4, hr⟩ := bind_ok hr
          cases hr
          show ∃ v L, P1.linearize v = .ok L ∧ (lmUpdate s _ v' L' _ g).info = some ⟨L.n, L.A⟩
          unfold lmUpdate
          simp only []
          split
          · exact ⟨v', L', q3, rfl⟩
          · exact ⟨v, Lv, hv, hi⟩) _ _ _ ⟨_, L, h2, rfl⟩ h4
      exact ⟨rfl, Or.inr hinv⟩
    · cases h; exact ⟨rfl, Or.inl e7⟩

/-- **C72, general form.** In a fresh problem in which the residuals touching some variable have together fewer rows
than its degrees of freedom, the covariance of any variable cannot be obtained after `solve`, whatever the solver: the
query raises `TypeError` (subscripting `None`). -/
theorem C72_covariance_raises (o : VarOps S) (P P' : Prob K S) (h : P.solve o = .ok P')
    (hfresh : P.info = none ∧ P.cov = none ∧ P.constKeys = []) (hn : (P.varsInit.map Prod.fst).Nodup)
    (k : K) (x : S) (hk : (k, x) ∈ P.varsInit)
    (hthin : (P.residuals.map fun r => if k ∈ r.keys then rowsOf P.varsInit r else 0).sum < o.dof x)
    (k' : K) (hk' : k' ∈ P.varsInit.map Prod.fst) :
    P'.getCovarianceBlock k' k' = .error .typeError := by
  obtain ⟨P1, h1, h2, h3⟩ := solve_info o P P' h
  have hcov := solve_cov o P P' h
  have hcc : P'.computeCovariance = P' := by
    unfold Prob.computeCovariance
    rcases h3 with h3 | ⟨v, L, hL, h3⟩
    · rw [h3, hfresh.1]
    · rw [h3]
      simp only
      rw [if_pos (thin_singular o P P1 h1 hn v L hL k x hk hfresh.2.2 hthin)]
  obtain ⟨⟨k'', x'⟩, hp, rfl⟩ := List.mem_map.1 hk'
  have hf : (k'', x') ∈ freeVars P.constKeys P.varsInit := by
    unfold freeVars
    rw [List.mem_filter]
    exact ⟨hp, by simp [hfresh.2.2]⟩
  obtain ⟨j, hj, hjk⟩ := List.getElem_of_mem hf
  obtain ⟨cs, c1, -⟩ := (C37_columns o P P1 h1 hn).1 j k'' x' (by rw [List.getElem?_eq_getElem hj, hjk])
  unfold Prob.getCovarianceBlock
  simp only [hcov, hfresh.2.1, Option.isNone_none, if_true, hcc, h2, c1]

end Verif
