import Verif.Lemmas.ProbSim
import Verif.Props.BatchEst
import Verif.Props.Residuals
import Verif.Props.FilterBatch

/-!
The problem that `BatchEstimator` builds from linear models is a linear least squares problem.
-/

namespace Verif

set_option linter.unusedVariables false
set_option linter.unusedSectionVars false

open Matrix

variable {U : Type} {n : ℕ}

/-! ### Arrays -/

theorem ofMat_row {m : ℕ} (M : Mat m n) (x : Vec n) (a : Fin m) :
    ∑ c ∈ Finset.range (DMat.ofMat M).cols, (DMat.ofMat M).get a c * (List.ofFn x).getD c 0 = (M *ᵥ x) a := by
  show ∑ c ∈ Finset.range n, _ = _
  rw [Finset.sum_range]
  refine Finset.sum_congr rfl fun c _ => ?_
  have h1 : (DMat.ofMat M).get a c = M a c := by
    show (if h : _ then _ else _) = _
    rw [dif_pos ⟨a.2, c.2⟩]
  have h2 : (List.ofFn x).getD c 0 = x c := by
    rw [List.getD_eq_getElem?_getD, List.getElem?_eq_getElem (by simp)]
    simp
  rw [h1, h2]

/-- A vector as a function on all indices. -/
def extVec {m : ℕ} (v : Vec m) (i : ℕ) : ℝ := if h : i < m then v ⟨i, h⟩ else 0

theorem map_range_ofFn {m : ℕ} (F : ℕ → ℝ) (v : Vec m) (h : ∀ i : Fin m, F i = v i) :
    (List.range m).map F = List.ofFn v := by
  refine List.ext_getElem (by simp) fun i h1 h2 => ?_
  have : i < m := by simpa using h1
  simpa using h ⟨i, this⟩

theorem linErr_one {m : ℕ} (β : Vec m) (M : Mat m n) (x : Vec n) :
    linErr m (extVec β) [DMat.ofMat M] [List.ofFn x] = List.ofFn (β + M *ᵥ x) := by
  unfold linErr
  refine map_range_ofFn _ _ fun i => ?_
  simp only [List.zip_cons_cons, List.zip_nil_left, List.map_cons, List.map_nil, List.sum_cons, List.sum_nil, add_zero]
  rw [ofMat_row]
  simp [extVec]

theorem linErr_two {m : ℕ} (β : Vec m) (M M' : Mat m n) (x x' : Vec n) :
    linErr m (extVec β) [DMat.ofMat M, DMat.ofMat M'] [List.ofFn x, List.ofFn x'] =
      List.ofFn (β + M *ᵥ x + M' *ᵥ x') := by
  unfold linErr
  refine map_range_ofFn _ _ fun i => ?_
  simp only [List.zip_cons_cons, List.zip_nil_left, List.map_cons, List.map_nil, List.sum_cons, List.sum_nil, add_zero]
  rw [ofMat_row, ofMat_row]
  simp [extVec, add_assoc]

theorem listNorm_ofFn {m : ℕ} (v : Vec m) : listNorm (List.ofFn v) * listNorm (List.ofFn v) = v ⬝ᵥ v := by
  unfold listNorm
  have : ((List.ofFn v).map fun x => x * x).sum = v ⬝ᵥ v := by
    rw [List.map_ofFn, List.sum_ofFn]
    rfl
  rw [this, Real.mul_self_sqrt]
  exact Finset.sum_nonneg fun i _ => mul_self_nonneg _

theorem l2_ofFn {m : ℕ} (v : Vec m) : l2Loss.loss (listNorm (List.ofFn v)) = 1 / 2 * (v ⬝ᵥ v) := by
  show 1 / 2 * _ * _ = _
  rw [mul_assoc, listNorm_ofFn]

/-! ### Factors -/

variable (A : Inp U → ℝ → Mat n n) (b : Inp U → ℝ → Vec n) (Q : Inp U → ℝ → Mat n n)

/-- Twice the cost of a factor, with the state number `k` at time `τ k`. -/
noncomputable def factorCost (τ : ℕ → ℝ) (X : ℕ → Vec n) : BFactor (Vec n) U n → ℝ
  | .prior k x0 P0 => mahal P0 (X k - x0)
  | .process k1 k2 u => mahal (Q ⟨u.value, some u.stamp⟩ (τ k2 - τ k1))
      (X k2 - (A ⟨u.value, some u.stamp⟩ (τ k2 - τ k1) *ᵥ X k1 + b ⟨u.value, some u.stamp⟩ (τ k2 - τ k1)))
  | .meas k y => measTerm X k y

/-- Factors with positive definite covariances between existing variables, forward in time. -/
def GoodFactor (τ : ℕ → ℝ) (N : ℕ) : BFactor (Vec n) U n → Prop
  | .prior k _ P0 => k < N ∧ P0.PosDef
  | .process k1 k2 _ => k1 < N ∧ k2 < N ∧ τ k1 < τ k2
  | .meas k y => k < N ∧ LinearMeas y

/-- Variables of the batch problem and of the linear problem: same values, the stamps are those of the keys. -/
def StampRel (τ : ℕ → ℝ) (k : ℕ) (x : St (Vec n)) (x' : List ℝ) : Prop :=
  x.stamp = some (τ k) ∧ x' = List.ofFn x.value

theorem ops_stampRel (τ : ℕ → ℝ) : OpsRel (StampRel τ) (vecStateOps n).varOps vecVarOps where
  dof k x x' h := by rw [h.2]; simp [StateOps.varOps, vecVarOps]
  plus k x x' dx y h hp := by
    obtain ⟨h1, rfl⟩ := h
    unfold StateOps.varOps at hp
    simp only at hp
    split at hp
    · rename_i hl
      cases hp
      refine ⟨_, if_pos (by simpa using hl), h1, ?_⟩
      refine List.ext_getElem (by simp [hl]) fun i g1 g2 => ?_
      have hi : i < n := by simpa using g2
      rw [List.getElem_zipWith]
      simp only [List.getElem_ofFn]
      show _ = x.value ⟨i, hi⟩ + dx.getD i 0
      rw [List.getD_eq_getElem?_getD, List.getElem?_eq_getElem (by omega)]
      rfl
    · cases hp

theorem ops_stampRel_symm (τ : ℕ → ℝ) :
    OpsRel (fun k (x : List ℝ) (x' : St (Vec n)) => StampRel τ k x' x) vecVarOps (vecStateOps n).varOps where
  dof k x x' h := by rw [h.2]; simp [StateOps.varOps, vecVarOps]
  plus k x x' dx y h hp := by
    obtain ⟨h1, rfl⟩ := h
    unfold vecVarOps at hp
    simp only at hp
    split at hp
    · rename_i hl
      cases hp
      have hl' : dx.length = n := by simpa using hl
      refine ⟨_, if_pos hl', h1, ?_⟩
      refine List.ext_getElem (by simp [hl']) fun i g1 g2 => ?_
      have hi : i < n := by simpa using g2
      rw [List.getElem_zipWith]
      simp only [List.getElem_ofFn]
      show _ = x'.value ⟨i, hi⟩ + dx.getD i 0
      rw [List.getD_eq_getElem?_getD, List.getElem?_eq_getElem (by omega)]
      rfl
    · cases hp

theorem bools_one {fl : List Bool} (h : fl.length = 1) : ∃ a, fl = [a] := List.length_eq_one_iff.1 h

theorem bools_two {fl : List Bool} (h : fl.length = 2) : ∃ a c, fl = [a, c] := List.length_eq_two.1 h

theorem statesRel_one {S S' K : Type} {R : K → S → S' → Prop} {k : K} {xs : List S} {xs' : List S'}
    (h : StatesRel R [k] xs xs') : ∃ x x', xs = [x] ∧ xs' = [x'] ∧ R k x x' := by
  cases xs with
  | nil => cases xs' <;> exact h.elim
  | cons x xs =>
    cases xs' with
    | nil => exact h.elim
    | cons x' xs' =>
      obtain ⟨h1, h2⟩ := h
      cases xs with
      | nil =>
        cases xs' with
        | nil => exact ⟨x, x', rfl, rfl, h1⟩
        | cons _ _ => exact h2.elim
      | cons _ _ => cases xs' <;> exact h2.elim

theorem statesRel_two {S S' K : Type} {R : K → S → S' → Prop} {k1 k2 : K} {xs : List S} {xs' : List S'}
    (h : StatesRel R [k1, k2] xs xs') : ∃ x y x' y', xs = [x, y] ∧ xs' = [x', y'] ∧ R k1 x x' ∧ R k2 y y' := by
  cases xs with
  | nil => cases xs' <;> exact h.elim
  | cons x xs =>
    cases xs' with
    | nil => exact h.elim
    | cons x' xs' =>
      obtain ⟨h1, h2⟩ := h
      obtain ⟨y, y', rfl, rfl, h3⟩ := statesRel_one h2
      exact ⟨x, y, x', y', rfl, rfl, h1, h3⟩

/-- Every good factor is a linear residual whose squared error is the cost of the factor. -/
theorem factor_linear (hQ : ∀ u dt, 0 < dt → (Q u dt).PosDef) (τ : ℕ → ℝ) (N : ℕ) (fac : BFactor (Vec n) U n)
    (hg : GoodFactor τ N fac) :
    ∃ r, fac.residual (vecStateOps n) (linProcModel A b Q) = .ok r ∧
      ∃ (ks : List ℕ) (Js : List DMat) (m : ℕ) (c : ℕ → ℝ), ResRel (StampRel τ) r (linRes ks Js m c) ∧ ks.Nodup ∧
        Js.length = ks.length ∧ (∀ J ∈ Js, J.rows = m ∧ J.cols = n) ∧ (∀ k ∈ ks, k < N) ∧
        ∀ X : ℕ → Vec n, l2Loss.loss (listNorm (linErr m c Js (ks.map fun k => List.ofFn (X k)))) =
          1 / 2 * factorCost A b Q τ X fac := by
  cases fac with
  | prior k x0 P0 =>
    obtain ⟨hk, hP⟩ := hg
    obtain ⟨L, hL, hLL⟩ := sqrtInformation_pd hP
    refine ⟨toResidual [k] ((⟨x0, L⟩ : PriorRes (Vec n) n).evaluate (vecStateOps n)), ?_, [k], [DMat.ofMat Lᵀ], n,
      extVec (-(Lᵀ *ᵥ x0)), ⟨rfl, ?_, ?_⟩, by simp, rfl, ?_, by simpa using hk, ?_⟩
    · show (PriorRes.new x0 P0).map _ = _
      unfold PriorRes.new
      rw [hL]
      rfl
    · intro xs xs' h
      obtain ⟨x, x', rfl, rfl, h1, rfl⟩ := statesRel_one h
      show Except.ok (List.ofFn (Lᵀ *ᵥ (x.value - x0))) = Except.ok (linErr n _ [DMat.ofMat Lᵀ] [List.ofFn x.value])
      rw [linErr_one]
      rw [mulVec_sub]
      congr 2
      abel
    · intro xs xs' fl h hf
      obtain ⟨x, x', rfl, rfl, h1, rfl⟩ := statesRel_one h
      obtain ⟨a, rfl⟩ := bools_one hf
      show Except.ok [Option.map DMat.ofMat (whenAsked a (Lᵀ * (1 : Mat n n)))] = Except.ok [if a then _ else _]
      rw [Matrix.mul_one]
      cases a <;> rfl
    · intro J hJ
      rw [List.mem_singleton] at hJ
      subst hJ
      exact ⟨rfl, rfl⟩
    · intro X
      show l2Loss.loss (listNorm (linErr n _ _ [List.ofFn (X k)])) = _
      rw [linErr_one, l2_ofFn]
      show _ = 1 / 2 * ((X k - x0) ⬝ᵥ P0⁻¹ *ᵥ (X k - x0))
      rw [← whitened_sq hLL, mulVec_sub]
      have : -(Lᵀ *ᵥ x0) + Lᵀ *ᵥ X k = Lᵀ *ᵥ X k - Lᵀ *ᵥ x0 := by abel
      rw [this]
  | process k1 k2 u =>
    obtain ⟨hk1, hk2, ht⟩ := hg
    set dt := τ k2 - τ k1 with hdt
    obtain ⟨L, hL, hLL⟩ := sqrtInformation_pd (hQ ⟨u.value, some u.stamp⟩ dt (by rw [hdt]; linarith))
    have hne : k1 ≠ k2 := by
      rintro rfl
      exact lt_irrefl _ ht
    refine ⟨_, rfl, [k1, k2], [DMat.ofMat (-Lᵀ * A ⟨u.value, some u.stamp⟩ dt), DMat.ofMat Lᵀ], n,
      extVec (-(Lᵀ *ᵥ b ⟨u.value, some u.stamp⟩ dt)), ⟨rfl, ?_, ?_⟩, by simpa using hne, rfl, ?_, ?_, ?_⟩
    · intro xs xs' h
      obtain ⟨x, y, x', y', rfl, rfl, ⟨h1, rfl⟩, h2, rfl⟩ := statesRel_two h
      show (processResidual (vecStateOps n) (linProcModel A b Q) ⟨u.value, some u.stamp⟩ [x, y] none).map _ =
        Except.ok (linErr n _ _ _)
      rw [linErr_two]
      unfold processResidual
      show (Except.map _ (stampDiff y.stamp x.stamp >>= _)) = _
      rw [h1, h2]
      show (Except.map _ (sqrtInformation (Q ⟨u.value, some u.stamp⟩ (τ k2 - τ k1)) >>= _)) = _
      rw [← hdt, hL]
      show Except.ok (List.ofFn (Lᵀ *ᵥ (y.value - (A _ dt *ᵥ x.value + b _ dt)))) = _
      rw [mulVec_sub, mulVec_add, Matrix.neg_mul, neg_mulVec, mulVec_mulVec]
      congr 2
      abel
    · intro xs xs' fl h hf
      obtain ⟨x, y, x', y', rfl, rfl, ⟨h1, rfl⟩, h2, rfl⟩ := statesRel_two h
      obtain ⟨f0, f1, rfl⟩ := bools_two hf
      show (processResidual (vecStateOps n) (linProcModel A b Q) ⟨u.value, some u.stamp⟩ [x, y] (some [f0, f1])).map _ = _
      unfold processResidual
      show (Except.map _ (stampDiff y.stamp x.stamp >>= _)) = _
      rw [h1, h2]
      show (Except.map _ (sqrtInformation (Q ⟨u.value, some u.stamp⟩ (τ k2 - τ k1)) >>= _)) = _
      rw [← hdt, hL]
      show Except.ok [Option.map DMat.ofMat (whenAsked f0 (-Lᵀ * A ⟨u.value, some u.stamp⟩ dt)),
        Option.map DMat.ofMat (whenAsked f1 (Lᵀ * (1 : Mat n n)))] = Except.ok [if f0 then _ else _, if f1 then _ else _]
      rw [Matrix.mul_one]
      cases f0 <;> cases f1 <;> rfl
    · intro J hJ
      simp only [List.mem_cons, List.not_mem_nil, or_false] at hJ
      rcases hJ with rfl | rfl <;> exact ⟨rfl, rfl⟩
    · intro k hk
      simp only [List.mem_cons, List.not_mem_nil, or_false] at hk
      rcases hk with rfl | rfl <;> assumption
    · intro X
      show l2Loss.loss (listNorm (linErr n _ _ [List.ofFn (X k1), List.ofFn (X k2)])) = _
      rw [linErr_two, l2_ofFn]
      show _ = 1 / 2 * ((X k2 - (A ⟨u.value, some u.stamp⟩ dt *ᵥ X k1 + b ⟨u.value, some u.stamp⟩ dt)) ⬝ᵥ
        (Q ⟨u.value, some u.stamp⟩ dt)⁻¹ *ᵥ (X k2 - (A ⟨u.value, some u.stamp⟩ dt *ᵥ X k1 + b ⟨u.value, some u.stamp⟩ dt)))
      rw [← whitened_sq hLL, mulVec_sub, mulVec_add, mulVec_mulVec]
      have : -(Lᵀ *ᵥ b ⟨u.value, some u.stamp⟩ dt) + (-Lᵀ * A ⟨u.value, some u.stamp⟩ dt) *ᵥ X k1 + Lᵀ *ᵥ X k2 =
          Lᵀ *ᵥ X k2 - ((Lᵀ * A ⟨u.value, some u.stamp⟩ dt) *ᵥ X k1 + Lᵀ *ᵥ b ⟨u.value, some u.stamp⟩ dt) := by
        rw [Matrix.neg_mul, neg_mulVec]; abel
      rw [this]
  | meas k y =>
    obtain ⟨hk, C, R, hR, hy⟩ := hg
    obtain ⟨L, hL, hLL⟩ := sqrtInformation_pd hR
    refine ⟨_, rfl, [k], [DMat.ofMat (-Lᵀ * C)], y.meas.m, extVec (Lᵀ *ᵥ y.meas.value), ⟨rfl, ?_, ?_⟩, by simp, rfl, ?_,
      by simpa using hk, ?_⟩
    · intro xs xs' h
      obtain ⟨x, x', rfl, rfl, h1, rfl⟩ := statesRel_one h
      show (measurementResidual y.meas [x] none).map _ = Except.ok (linErr y.meas.m _ _ _)
      rw [linErr_one]
      unfold measurementResidual
      rw [hy]
      show (Except.map _ (sqrtInformation R >>= _)) = _
      rw [hL]
      show Except.ok (List.ofFn (Lᵀ *ᵥ (y.meas.value - C *ᵥ x.value))) = _
      rw [mulVec_sub, Matrix.neg_mul, neg_mulVec, mulVec_mulVec, sub_eq_add_neg]
    · intro xs xs' fl h hf
      obtain ⟨x, x', rfl, rfl, h1, rfl⟩ := statesRel_one h
      obtain ⟨a, rfl⟩ := bools_one hf
      show (measurementResidual y.meas [x] (some [a])).map _ = _
      unfold measurementResidual
      rw [hy]
      show (Except.map _ (sqrtInformation R >>= _)) = _
      rw [hL]
      show Except.ok [Option.map DMat.ofMat (whenAsked a (-Lᵀ * C))] = Except.ok [if a then _ else _]
      cases a <;> rfl
    · intro J hJ
      rw [List.mem_singleton] at hJ
      subst hJ
      exact ⟨rfl, rfl⟩
    · intro X
      show l2Loss.loss (listNorm (linErr y.meas.m _ _ [List.ofFn (X k)])) = _
      rw [linErr_one, l2_ofFn]
      show _ = 1 / 2 * measTerm X k y
      unfold measTerm
      rw [hy]
      show _ = 1 / 2 * mahal R (y.meas.value - C *ᵥ X k)
      unfold mahal
      rw [← whitened_sq hLL, mulVec_sub, mulVec_mulVec, Matrix.neg_mul, neg_mulVec, ← sub_eq_add_neg]

end Verif
