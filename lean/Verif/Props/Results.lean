import Verif.Model.Results
import Verif.Props.Interp
import Verif.Props.MixtureGrad
import Verif.Lemmas.Mixture
import Verif.Lemmas.LinAlg

/-!
Property theorems about the evaluation of estimates (`navlie/utils/common.py`; C54, C55).
-/

namespace Verif

open Matrix

set_option linter.unusedVariables false
set_option linter.unusedSectionVars false

variable {V : Type} {n : ℕ}

/-! ### C54 -/

theorem psd_inv_dot {P : Mat n n} (h : P.PosSemidef) (e : Vec n) : 0 ≤ e ⬝ᵥ P⁻¹ *ᵥ e := by
  by_cases hd : P.det = 0
  · rw [Matrix.nonsing_inv_apply_not_isUnit P (by rw [hd]; simp)]
    simp
  · exact psd_dot (psd_unit_pd h hd).inv.posSemidef e

theorem raiseIf_ok {p : Prop} {e : Err} {u : Unit} (h : raiseIf p e = .ok u) : ¬ p := by
  unfold raiseIf at h
  intro hp; rw [if_pos hp] at h; cases h

theorem raiseIf_no {p : Prop} {e : Err} (h : ¬ p) : raiseIf p e = .ok () := by
  unfold raiseIf; rw [if_neg h]

theorem raiseIf_yes {p : Prop} {e : Err} (h : p) : raiseIf p e = .error e := by
  unfold raiseIf; rw [if_pos h]

/-- What a result is: the error `truth ⊖ estimate` and the metrics computed from it. -/
theorem gaussianResult_ok {o : StateOps V n} {x : St V} {P : Mat n n} {truth : V} {r : GResult V n}
    (h : gaussianResult o x P truth = .ok r) :
    P.det ≠ 0 ∧ r.stamp = x.stamp ∧ r.covariance = P ∧ r.error = o.minus truth x.value ∧
    r.ees = ∑ i, r.error i ^ 2 ∧ r.nees = r.error ⬝ᵥ P⁻¹ *ᵥ r.error ∧ r.rmse = Real.sqrt (r.ees / n) ∧
    r.md = Real.sqrt r.nees ∧ (∀ i, r.threeSigma i = 3 * Real.sqrt (P i i)) ∧ 0 < n ∧ 0 ≤ r.nees := by
  unfold gaussianResult at h
  obtain ⟨s, h1, h⟩ := bind_ok h
  obtain ⟨_, h2, h⟩ := bind_ok h
  obtain ⟨rm, h3, h⟩ := bind_ok h
  obtain ⟨md, h4, h⟩ := bind_ok h
  obtain ⟨_, h5, h⟩ := bind_ok h
  cases h
  obtain ⟨hd, rfl⟩ := solve_eq_ok h1
  have hn : n ≠ 0 := raiseIf_ok h2
  obtain ⟨_, rfl⟩ := npSqrt_ok h3
  obtain ⟨hnn, rfl⟩ := npSqrt_ok h4
  refine ⟨hd, rfl, rfl, rfl, ?_, ?_, rfl, rfl, fun i => rfl, Nat.pos_of_ne_zero hn, hnn⟩
  · simp only [dotProduct, sq]
  · rfl

/-- **C54.** A result exists for every estimate with a positive definite covariance (and at least one degree of freedom),
and its metrics are `e^T e`, `e^T P^-1 e`, `sqrt(ees / dof)`, `sqrt(nees)` and `3 sqrt(P_ii)`, with `e` the difference of
the true and the estimated state; `nees` is not negative, and zero only if the error is. -/
theorem C54_result (o : StateOps V n) (x : St V) (P : Mat n n) (truth : V) (hP : P.PosDef) (hn : 0 < n) :
    ∃ r, gaussianResult o x P truth = .ok r ∧ r.stamp = x.stamp ∧ r.covariance = P ∧
      r.error = o.minus truth x.value ∧ r.ees = ∑ i, r.error i ^ 2 ∧ r.nees = r.error ⬝ᵥ P⁻¹ *ᵥ r.error ∧
      r.rmse ^ 2 * n = r.ees ∧ r.md ^ 2 = r.nees ∧ (∀ i, r.threeSigma i ^ 2 = 9 * P i i ∧ 0 ≤ r.threeSigma i) ∧
      0 ≤ r.nees ∧ (r.nees = 0 ↔ r.error = 0) := by
  have hd := pd_det hP
  have hdiag : ∀ i, 0 ≤ P i i := fun i => by
    have := psd_dot hP.posSemidef (Pi.single i 1)
    simpa using this
  have hnn : 0 ≤ (o.minus truth x.value) ⬝ᵥ P⁻¹ *ᵥ (o.minus truth x.value) := psd_inv_dot hP.posSemidef _
  have hex : ∃ r, gaussianResult o x P truth = .ok r := by
    unfold gaussianResult
    simp only
    rw [solve_ok hd, ok_bindE, raiseIf_no hn.ne', ok_bindE,
      npSqrt_nn (div_nonneg (by simp only [dotProduct]; exact Finset.sum_nonneg fun i _ => mul_self_nonneg _)
        (Nat.cast_nonneg n)), ok_bindE]
    have e : (o.minus truth x.value ⬝ᵥ fun i => (P⁻¹ * Matrix.of fun i (_ : Fin 1) => o.minus truth x.value i) i 0) =
        (o.minus truth x.value) ⬝ᵥ P⁻¹ *ᵥ (o.minus truth x.value) := rfl
    rw [e, npSqrt_nn hnn, ok_bindE, raiseIf_no (by push Not; exact hdiag), ok_bindE]
    exact ⟨_, rfl⟩
  obtain ⟨r, hr⟩ := hex
  obtain ⟨h1, h2, h3, h4, h5, h6, h7, h8, h9, h10, h11⟩ := gaussianResult_ok hr
  have hees : 0 ≤ r.ees := by rw [h5]; exact Finset.sum_nonneg fun i _ => sq_nonneg _
  refine ⟨r, hr, h2, h3, h4, h5, h6, ?_, ?_, fun i => ⟨?_, ?_⟩, h11, ?_⟩
  · rw [h7, Real.sq_sqrt (div_nonneg hees (Nat.cast_nonneg n))]
    field_simp
  · rw [h8, Real.sq_sqrt h11]
  · rw [h9, mul_pow, Real.sq_sqrt (hdiag i)]; norm_num
  · rw [h9]; positivity
  · constructor
    · intro h0
      by_contra hne
      exact absurd h0 (by rw [h6]; exact (pd_dot hP.inv hne).ne')
    · intro h0; rw [h6, h0]; simp

/-- **C54.** `nees` does not depend on the coordinates: if another parametrization has the error `M e` and the covariance
`M P M^T` with an invertible `M`, its `nees` is the same. -/
theorem C54_invariant {V' : Type} (o : StateOps V n) (o' : StateOps V' n) (x : St V) (x' : St V') (P M : Mat n n)
    (truth : V) (truth' : V') (hM : M.det ≠ 0) (r : GResult V n) (r' : GResult V' n)
    (he : o'.minus truth' x'.value = M *ᵥ o.minus truth x.value) (h : gaussianResult o x P truth = .ok r)
    (h' : gaussianResult o' x' (M * P * Mᵀ) truth' = .ok r') : r'.nees = r.nees := by
  obtain ⟨h1, _, _, h4, _, h6, _⟩ := gaussianResult_ok h
  obtain ⟨h1', _, _, h4', _, h6', _⟩ := gaussianResult_ok h'
  have hu := unit_of_det hM
  have hut : IsUnit Mᵀ.det := by rwa [det_transpose]
  have hinv : (M * P * Mᵀ)⁻¹ = Mᵀ⁻¹ * P⁻¹ * M⁻¹ := by
    rw [Matrix.mul_inv_rev, Matrix.mul_inv_rev, Matrix.mul_assoc]
  rw [h6', h6, h4', he, ← h4, hinv]
  have e1 : (Mᵀ⁻¹ * P⁻¹ * M⁻¹) *ᵥ M *ᵥ r.error = Mᵀ⁻¹ *ᵥ P⁻¹ *ᵥ r.error := by
    rw [mulVec_mulVec, Matrix.mul_assoc, Matrix.nonsing_inv_mul _ hu, Matrix.mul_one, mulVec_mulVec]
  rw [e1, ← vecMul_transpose, ← dotProduct_mulVec, mulVec_mulVec, Matrix.mul_nonsing_inv _ hut, one_mulVec]

/-- The quadratic form of a marginal is at most that of the whole. -/
theorem marginal_le {m : ℕ} {P : Mat n n} (hP : P.PosDef) (C : Mat m n) (hS : (C * P * Cᵀ).det ≠ 0) (e : Vec n) :
    (C *ᵥ e) ⬝ᵥ (C * P * Cᵀ)⁻¹ *ᵥ (C *ᵥ e) ≤ e ⬝ᵥ P⁻¹ *ᵥ e := by
  set S := C * P * Cᵀ with hSdef
  set w := S⁻¹ *ᵥ (C *ᵥ e) with hw
  have hPs : Pᵀ = P := psd_symm hP.posSemidef
  have hu : IsUnit P.det := unit_of_det (pd_det hP)
  have hPi : (P⁻¹)ᵀ = P⁻¹ := by rw [transpose_nonsing_inv, hPs]
  have h0 := psd_dot hP.inv.posSemidef (e - P *ᵥ Cᵀ *ᵥ w)
  have hSw : S *ᵥ w = C *ᵥ e := by
    rw [hw, mulVec_mulVec, Matrix.mul_nonsing_inv _ (unit_of_det hS), one_mulVec]
  have k1 : P⁻¹ *ᵥ (e - P *ᵥ Cᵀ *ᵥ w) = P⁻¹ *ᵥ e - Cᵀ *ᵥ w := by
    rw [mulVec_sub, mulVec_mulVec _ P⁻¹ P, Matrix.nonsing_inv_mul _ hu, one_mulVec]
  have k2 : (P *ᵥ Cᵀ *ᵥ w) ⬝ᵥ P⁻¹ *ᵥ e = (Cᵀ *ᵥ w) ⬝ᵥ e := by
    rw [← vecMul_transpose P, ← dotProduct_mulVec, hPs, mulVec_mulVec e P P⁻¹, Matrix.mul_nonsing_inv _ hu, one_mulVec]
  have k3' : ∀ z, (Cᵀ *ᵥ w) ⬝ᵥ z = w ⬝ᵥ C *ᵥ z := by
    intro z
    rw [← vecMul_transpose Cᵀ, transpose_transpose, ← dotProduct_mulVec]
  have k3 := k3' e
  have k4 : (P *ᵥ Cᵀ *ᵥ w) ⬝ᵥ Cᵀ *ᵥ w = w ⬝ᵥ C *ᵥ e := by
    rw [dotProduct_comm, k3', ← hSw, mulVec_mulVec, mulVec_mulVec]
  have k5 : e ⬝ᵥ Cᵀ *ᵥ w = w ⬝ᵥ C *ᵥ e := by rw [dotProduct_comm, k3]
  rw [k1, sub_dotProduct, dotProduct_sub, dotProduct_sub, k2, k3, k4, k5] at h0
  have k6 : (C *ᵥ e) ⬝ᵥ w = w ⬝ᵥ C *ᵥ e := dotProduct_comm _ _
  rw [k6]
  linarith

/-- **C54.** Examining only some components (any linear combinations `C e`, with covariance `C P C^T`) never gives a
larger `nees`. -/
theorem C54_marginal {V' : Type} {m : ℕ} (o : StateOps V n) (o' : StateOps V' m) (x : St V) (x' : St V') (P : Mat n n)
    (hP : P.PosDef) (C : Mat m n) (truth : V) (truth' : V') (r : GResult V n) (r' : GResult V' m)
    (he : o'.minus truth' x'.value = C *ᵥ o.minus truth x.value) (h : gaussianResult o x P truth = .ok r)
    (h' : gaussianResult o' x' (C * P * Cᵀ) truth' = .ok r') : r'.nees ≤ r.nees := by
  obtain ⟨h1, _, _, h4, _, h6, _⟩ := gaussianResult_ok h
  obtain ⟨h1', _, _, h4', _, h6', _⟩ := gaussianResult_ok h'
  rw [h6', h6, h4', he, ← h4]
  exact marginal_le hP C h1' _

/-- **C54.** `from_estimates` gives one result for each estimate, in order, comparing estimate `i` with the true state
interpolated at the stamp of estimate `i`. -/
theorem C54_from_estimates (o : StateOps V n) (m : InterpMethod) (ests : List (St V × Mat n n)) (truths : List (V × ℝ))
    (rs : List (GResult V n)) (h : fromEstimates o m ests truths = .ok rs) :
    rs.length = ests.length ∧ ∀ (i : ℕ) (r : GResult V n), rs[i]? = some r →
      ∃ x P t y, ests[i]? = some (x, P) ∧ x.stamp = some t ∧ interpOne o m truths t = .ok y ∧
        gaussianResult o x P y.1 = .ok r := by
  unfold fromEstimates at h
  obtain ⟨out, h1, h⟩ := bind_ok h
  obtain ⟨ts, rfl, hlen, hq⟩ := C50_queries o m truths _ out h1
  simp only [InterpOut.toList] at h
  obtain ⟨h2, h3⟩ := mapM_get h
  rw [List.length_map] at hlen
  rw [List.length_zip, hlen, Nat.min_self] at h2
  refine ⟨h2, fun i r hr => ?_⟩
  obtain ⟨p, hp, hg⟩ := h3 i r hr
  rw [List.getElem?_zip_eq_some] at hp
  obtain ⟨hp1, hp2⟩ := hp
  obtain ⟨t, y, ht, hy, hint⟩ := hq i (stampItem p.1.1.stamp) (by rw [List.getElem?_map, hp1]; rfl)
  rw [hp2] at hy
  cases hy
  have hst : p.1.1.stamp = some t := by
    cases hs : p.1.1.stamp with
    | none => rw [hs] at ht; cases ht
    | some t' => rw [hs] at ht; cases ht; rfl
  refine ⟨p.1.1, p.1.2, t, p.2, hp1, hst, ?_, hg⟩
  have : (interpOne o m truths t).map InterpOut.one = .ok (.one p.2) := hint
  cases hi : interpOne o m truths t with
  | error e => rw [hi] at this; cases this
  | ok v => rw [hi] at this; cases this; rfl

/-- **C54.** The confidence bounds raise `ValueError` exactly for confidence levels outside `(0, 1)`. -/
theorem C54_bounds_error (ppf : ℝ → ℝ → ℝ) (trials : ℕ) (dofs : List ℝ) (c : ℝ) (b : Bool) :
    (neesLowerBound ppf trials dofs c = .error .valueError ↔ ¬ (0 < c ∧ c < 1)) ∧
    (neesUpperBound ppf trials dofs c b = .error .valueError ↔ ¬ (0 < c ∧ c < 1)) := by
  have e : (c ≥ 1 ∨ c ≤ 0) ↔ ¬ (0 < c ∧ c < 1) := by
    constructor
    · rintro (h | h) ⟨h1, h2⟩ <;> linarith
    · intro h
      by_contra hh
      push Not at hh
      exact h ⟨hh.2, hh.1⟩
  constructor
  · unfold neesLowerBound
    rw [← e]
    by_cases h : c ≥ 1 ∨ c ≤ 0
    · rw [if_pos h]; simp [h]
    · rw [if_neg h]; simp [h]
  · unfold neesUpperBound
    rw [← e]
    by_cases h : c ≥ 1 ∨ c ≤ 0
    · rw [if_pos h]; simp [h]
    · rw [if_neg h]; simp [h]

/-- **C54.** The bounds enclose an interval, in which the single-sided upper bound lies, for every quantile function that
is increasing on `(0, 1)`; there is one bound for each time step. -/
theorem C54_bounds_order (ppf : ℝ → ℝ → ℝ) (hmono : ∀ p q d, 0 < p → p ≤ q → q < 1 → ppf p d ≤ ppf q d) (trials : ℕ)
    (dofs : List ℝ) (c : ℝ) (hc : 0 < c ∧ c < 1) :
    ∃ lo up one, neesLowerBound ppf trials dofs c = .ok lo ∧ neesUpperBound ppf trials dofs c true = .ok up ∧
      neesUpperBound ppf trials dofs c false = .ok one ∧
      lo.length = dofs.length ∧ up.length = dofs.length ∧ one.length = dofs.length ∧
      ∀ (i : ℕ) (l u s : ℝ), lo[i]? = some l → up[i]? = some u → one[i]? = some s → l ≤ u ∧ s ≤ u := by
  have hn : ¬ (c ≥ 1 ∨ c ≤ 0) := by
    rintro (h | h) <;> linarith [hc.1, hc.2]
  unfold neesLowerBound neesUpperBound
  rw [if_neg hn, if_neg hn, if_neg hn]
  refine ⟨_, _, _, rfl, rfl, rfl, by simp, by simp, by simp, ?_⟩
  intro i l u s hl hu hs
  rw [List.getElem?_map] at hl hu hs
  cases hd : dofs[i]? with
  | none => rw [hd] at hl; cases hl
  | some d =>
    rw [hd] at hl hu hs
    simp only [Option.map_some, Option.some.injEq, if_true, Bool.false_eq_true, if_false, add_zero] at hl hu hs
    subst hl hu hs
    have ht : (0 : ℝ) ≤ trials := Nat.cast_nonneg _
    constructor
    · exact div_le_div_of_nonneg_right (hmono _ _ _ (by linarith [hc.2]) (by linarith [hc.1]) (by linarith [hc.2])) ht
    · exact div_le_div_of_nonneg_right (hmono _ _ _ hc.1 (by linarith [hc.2]) (by linarith [hc.2])) ht

theorem columnAverage_ok {rows : List (List ℝ)} {avg : List ℝ} (h : columnAverage rows = .ok avg) :
    rows ≠ [] ∧ (∀ r ∈ rows, r.length = avg.length) ∧ ∀ t a, avg[t]? = some a →
      a = (rows.map fun q => q.getD t 0).sum / (rows.length : ℝ) := by
  cases rows with
  | nil => cases h
  | cons r rs =>
    simp only [columnAverage] at h
    split at h
    · rename_i hall
      cases h
      refine ⟨by simp, ?_, ?_⟩
      · intro q hq
        simp only [List.length_map, List.length_range]
        rcases List.mem_cons.1 hq with rfl | hq
        · rfl
        · simpa using (List.all_eq_true.1 hall) q hq
      · intro t a ha
        rw [List.getElem?_map] at ha
        cases ht : (List.range r.length)[t]? with
        | none => rw [ht] at ha; cases ha
        | some t' =>
          rw [ht] at ha
          obtain ⟨h1, h2⟩ := List.getElem?_eq_some_iff.1 ht
          rw [List.getElem_range] at h2
          subst h2
          simp only [Option.map_some, Option.some.injEq] at ha
          exact ha.symm
    · cases h

theorem sum_bounds (l : List ℝ) (a b : ℝ) (h : ∀ x ∈ l, a ≤ x ∧ x ≤ b) : a * l.length ≤ l.sum ∧ l.sum ≤ b * l.length := by
  induction l with
  | nil => simp
  | cons x l ih =>
    have h1 := h x (by simp)
    have h2 := ih fun y hy => h y (by simp [hy])
    simp only [List.sum_cons, List.length_cons, Nat.cast_add, Nat.cast_one]
    constructor <;> nlinarith [h1.1, h1.2, h2.1, h2.2]

/-- **C54.** The averages of a Monte Carlo experiment are, at each time step, within the bounds of the single trials. -/
theorem C54_average (dof : ℕ) (trials : List Trial) (mc : MonteCarlo) (h : monteCarloResult dof trials = .ok mc)
    (t : ℕ) (v lo hi : ℝ) (hv : mc.averageNees[t]? = some v)
    (hb : ∀ tr ∈ trials, ∀ x, tr.nees[t]? = some x → lo ≤ x ∧ x ≤ hi) : lo ≤ v ∧ v ≤ hi := by
  unfold monteCarloResult at h
  obtain ⟨an, h1, h⟩ := bind_ok h
  obtain ⟨ae, h2, h⟩ := bind_ok h
  obtain ⟨ms, h3, h⟩ := bind_ok h
  cases h
  obtain ⟨hne, hlen, havg⟩ := columnAverage_ok h1
  have hv' := havg t v hv
  have ht : t < an.length := (List.getElem?_eq_some_iff.1 hv).1
  have hpos : (0 : ℝ) < ((trials.map Trial.nees).length : ℝ) := by
    exact_mod_cast List.length_pos_iff.2 hne
  have hs := sum_bounds ((trials.map Trial.nees).map fun q => q.getD t 0) lo hi (by
    intro x hx
    obtain ⟨q, hq, rfl⟩ := List.mem_map.1 hx
    have hl := hlen q hq
    obtain ⟨tr, htr, rfl⟩ := List.mem_map.1 hq
    have hx' := List.getElem?_eq_getElem (show t < tr.nees.length by omega)
    have hg : tr.nees.getD t 0 = tr.nees[t]'(by omega) := by rw [List.getD_eq_getElem?_getD, hx']; rfl
    rw [hg]
    exact hb tr htr _ hx')
  rw [List.length_map] at hs
  rw [hv', le_div_iff₀ hpos, div_le_iff₀ hpos]
  exact hs

/-! ### C55 -/

theorem lt_rangeLen_pos {s e k : ℤ} (hk : 0 < k) (i : ℕ) : i < rangeLen s e k ↔ s + i * k < e := by
  unfold rangeLen
  rw [if_pos hk, Int.lt_toNat, Int.lt_iff_add_one_le, Int.le_ediv_iff_mul_le hk]
  constructor <;> intro h <;> nlinarith

theorem rangeZ_get {s e k : ℤ} {i : ℕ} {z : ℤ} (h : (rangeZ s e k)[i]? = some z) : i < rangeLen s e k ∧ z = s + i * k := by
  unfold rangeZ at h
  rw [List.getElem?_map] at h
  cases hr : (List.range (rangeLen s e k))[i]? with
  | none => rw [hr] at h; cases h
  | some j =>
    rw [hr] at h
    obtain ⟨h1, h2⟩ := List.getElem?_eq_some_iff.1 hr
    rw [List.getElem_range] at h2
    subst h2
    simp only [Option.map_some, Option.some.injEq] at h
    exact ⟨by simpa using h1, h.symm⟩

theorem rangeZ_length (s e k : ℤ) : (rangeZ s e k).length = rangeLen s e k := by simp [rangeZ]

theorem wrapIdx_ok {len : ℕ} {i : ℤ} {t : ℕ} (h : wrapIdx len i = .ok t) :
    t < len ∧ ((0 ≤ i ∧ i < len ∧ (t : ℤ) = i) ∨ (-(len : ℤ) ≤ i ∧ i < 0 ∧ (t : ℤ) = i + len)) := by
  unfold wrapIdx at h
  split at h
  · rename_i h1; cases h; omega
  · split at h
    · rename_i h1; cases h; omega
    · cases h

/-- For a positive step, the indices that the code computes are those that numpy selects, or there are more of them, or
there are none. -/
theorem slice_pos {len : ℕ} {s e : Option ℤ} {k : ℤ} (hk : 0 < k) {cts : List ℕ}
    (h : (rangeZ (s.getD 0) (e.getD len) k).mapM (wrapIdx len) = .ok cts) :
    cts.length = 0 ∨ (sliceIdx len s e k).length < cts.length ∨ sliceIdx len s e k = cts := by
  obtain ⟨h1, h2⟩ := mapM_get h
  rw [rangeZ_length] at h1
  set S := s.getD 0 with hS
  set E := e.getD len with hE
  set a := sliceStart len k s with ha
  set b := sliceStop len k e with hb
  have hts : (sliceIdx len s e k).length = rangeLen a b k := by simp [sliceIdx, rangeZ, ha, hb]
  by_cases hc0 : cts.length = 0
  · exact Or.inl hc0
  right
  by_cases hlt : (sliceIdx len s e k).length < cts.length
  · exact Or.inl hlt
  right
  -- every element is in bounds
  have hel : ∀ (i : ℕ) (hi : i < cts.length), cts[i] < len ∧
      ((0 ≤ S + i * k ∧ S + i * k < len ∧ (cts[i] : ℤ) = S + i * k) ∨
        (-(len : ℤ) ≤ S + i * k ∧ S + i * k < 0 ∧ (cts[i] : ℤ) = S + i * k + len)) := by
    intro i hi
    obtain ⟨z, hz, hw⟩ := h2 i _ (List.getElem?_eq_getElem hi)
    obtain ⟨_, rfl⟩ := rangeZ_get hz
    exact wrapIdx_ok hw
  have h0 := (hel 0 (by omega)).2
  simp only [Nat.cast_zero, zero_mul, add_zero] at h0
  have hSE : S < E := by
    have := (lt_rangeLen_pos (s := S) (e := E) hk 0).1 (by omega)
    simpa using this
  set B := cts.length with hB
  have hBlast : S + (B - 1 : ℤ) * k < E := by
    have := (lt_rangeLen_pos (s := S) (e := E) hk (B - 1)).1 (by omega)
    rw [Nat.cast_sub (by omega)] at this
    simpa using this
  have hBnext : E ≤ S + B * k := by
    by_contra hh
    have := (lt_rangeLen_pos (s := S) (e := E) hk B).2 (not_le.1 hh)
    omega
  have hAlast : a + (B - 1 : ℤ) * k < b := by
    have := (lt_rangeLen_pos (s := a) (e := b) hk (B - 1)).1 (by omega)
    rw [Nat.cast_sub (by omega)] at this
    simpa using this
  have hEval : b = if E < 0 then max (E + len) 0 else min E len := by
    rw [hb, hE]
    cases e with
    | none => simp only [sliceStop, Option.getD_none, if_pos hk]; split <;> omega
    | some e => simp only [sliceStop, Option.getD_some, if_pos hk]
  have hSval : a = if S < 0 then max (S + len) 0 else min S len := by
    rw [ha, hS]
    cases s with
    | none => simp only [sliceStart, Option.getD_none, if_pos hk]; split <;> omega
    | some s => simp only [sliceStart, Option.getD_some, if_pos hk]
  -- the element `i` of both lists is the same
  have key : rangeLen a b k ≤ B ∧ ∀ (i : ℕ) (hi : i < B), ((cts[i]'hi : ℕ) : ℤ) = a + i * k := by
    have hle : ∀ i : ℕ, i < B → (i : ℤ) * k ≤ (B - 1 : ℤ) * k := by
      intro i hi
      have : (i : ℤ) ≤ (B : ℤ) - 1 := by omega
      nlinarith
    rcases lt_or_ge S 0 with hneg | hpos
    · have hSa : a = S + len := by
        rw [hSval, if_pos hneg]; omega
      have hblen : b ≤ len := by
        rw [hEval]; split <;> omega
      have hBn : S + (B - 1 : ℤ) * k < 0 := by omega
      constructor
      · by_contra hh
        have := (lt_rangeLen_pos (s := a) (e := b) hk B).1 (by omega)
        rcases lt_or_ge E 0 with hE0 | hE0
        · rw [if_pos hE0] at hEval
          have : b = E + len := by omega
          omega
        · rw [if_neg (not_lt.2 hE0)] at hEval
          omega
      · intro i hi
        have := hle i hi
        have h3 := (hel i hi).2
        rw [hSa]
        omega
    · have hSa : a = S := by
        rw [hSval, if_neg (not_lt.2 hpos)]; omega
      have hbE : b ≤ E := by
        rw [hEval]; split <;> omega
      constructor
      · by_contra hh
        have := (lt_rangeLen_pos (s := a) (e := b) hk B).1 (by omega)
        omega
      · intro i hi
        have h3 := (hel i hi).2
        have hik : 0 ≤ (i : ℤ) * k := by positivity
        rw [hSa]
        omega
  apply List.ext_getElem
  · omega
  · intro i hi1 hi2
    have := key.2 i hi2
    simp only [sliceIdx, rangeZ, List.getElem_map, List.getElem_range]
    omega

/-- A slice with a positive step, or a list. -/
def Key.Forward : Key → Prop
  | .slice _ _ k => 0 < k.getD 1
  | .list _ => True
  | _ => False

theorem key_aligned {len : ℕ} {k : Key} (hk : k.Forward) {r : List ℤ} {cts ts : List ℕ} (h1 : k.raw len = .ok r)
    (h2 : r.mapM (wrapIdx len) = .ok cts) (h3 : k.idx len = .ok ts) :
    cts.length = 0 ∨ ts.length < cts.length ∨ ts = cts := by
  cases k with
  | int i => exact hk.elim
  | other => exact hk.elim
  | list l =>
    cases h1
    simp only [Key.idx] at h3
    rw [h2] at h3
    cases h3
    exact Or.inr (Or.inr rfl)
  | slice s e st =>
    replace hk : 0 < st.getD 1 := hk
    simp only [Key.raw] at h1
    rw [if_neg hk.ne'] at h1
    cases h1
    simp only [Key.idx] at h3
    rw [if_neg hk.ne'] at h3
    cases h3
    exact slice_pos hk h2

theorem getItem_parts {g : GList} {k1 k2 : Key} {out : GSlice} (h : getItem g k1 k2 = .ok out) :
    ∃ r1 r2, k1.raw g.T = .ok r1 ∧ k2.raw g.D = .ok r2 ∧ r1.mapM (wrapIdx g.T) = .ok out.covT ∧
      r2.mapM (wrapIdx g.D) = .ok out.covC ∧ errIndex g.T g.D k1 k2 = .ok out.err ∧
      neesOf g out.err out.covT out.covC = .ok out.nees ∧ out.ees = eesOf g out.err := by
  unfold getItem at h
  obtain ⟨r1, h1, h⟩ := bind_ok h
  obtain ⟨r2, h2, h⟩ := bind_ok h
  obtain ⟨ct, h3, h⟩ := bind_ok h
  obtain ⟨cc, h4, h⟩ := bind_ok h
  obtain ⟨er, h5, h⟩ := bind_ok h
  obtain ⟨ns, h6, h⟩ := bind_ok h
  cases h
  exact ⟨r1, r2, h1, h2, h3, h4, h5, h6, rfl⟩

/-- The indices of numpy along the two axes, when the result has two axes. -/
theorem errIndex_two {T D : ℕ} {k1 k2 : Key} {ts js : List ℕ} (h : errIndex T D k1 k2 = .ok (.twoD ts js)) :
    k1.idx T = .ok ts ∧ k2.idx D = .ok js := by
  unfold errIndex at h
  obtain ⟨a, h1, h⟩ := bind_ok h
  obtain ⟨b, h2, h⟩ := bind_ok h
  unfold pairIdx at h
  split at h
  · cases h
  · cases h
  · cases h
  · cases hb : bdim Err.indexError a.length b.length with
    | error e => rw [hb] at h; cases h
    | ok N => rw [hb] at h; cases h
  · cases h; exact ⟨h1, h2⟩

/-- **C55.** For slices with positive steps (with any start and stop, also negative or beyond the end) and lists, if
`results[k1, k2]` returns a matrix of errors then its rows and columns are the time steps and components of its
covariances — or it has no entries at all. -/
theorem C55_aligned (g : GList) (k1 k2 : Key) (h1 : k1.Forward) (h2 : k2.Forward) (out : GSlice) (ts js : List ℕ)
    (h : getItem g k1 k2 = .ok out) (herr : out.err = .twoD ts js) :
    (ts = out.covT ∧ js = out.covC) ∨ (ts.length * js.length = 0 ∧ out.covT.length * out.covC.length = 0) := by
  obtain ⟨r1, r2, e1, e2, e3, e4, e5, e6, _⟩ := getItem_parts h
  rw [herr] at e5 e6
  obtain ⟨f1, f2⟩ := errIndex_two e5
  have a1 := key_aligned h1 e1 e3 f1
  have a2 := key_aligned h2 e2 e4 f2
  simp only [neesOf] at e6
  unfold nees2 at e6
  obtain ⟨_, e7, _⟩ := bind_ok e6
  have hsz := not_not.1 (raiseIf_ok e7)
  by_cases h0 : ts.length * js.length = 0
  · exact Or.inr ⟨h0, by rw [← hsz]; exact h0⟩
  left
  have hc : out.covT.length ≠ 0 ∧ out.covC.length ≠ 0 := by
    rw [hsz] at h0
    exact ⟨fun hh => h0 (by rw [hh]; simp), fun hh => h0 (by rw [hh]; simp)⟩
  have p1 : 0 < ts.length := Nat.pos_of_ne_zero fun hh => h0 (by rw [hh]; simp)
  have p2 : 0 < js.length := Nat.pos_of_ne_zero fun hh => h0 (by rw [hh]; simp)
  rcases a1 with a1 | a1 | a1
  · exact absurd a1 hc.1
  · rcases a2 with a2 | a2 | a2
    · exact absurd a2 hc.2
    · have := Nat.mul_lt_mul_of_lt_of_lt a1 a2
      omega
    · rw [a2] at hsz p2
      have := Nat.eq_of_mul_eq_mul_right p2 hsz
      omega
  · rcases a2 with a2 | a2 | a2
    · exact absurd a2 hc.2
    · rw [a1] at hsz p1
      have := Nat.eq_of_mul_eq_mul_left p1 hsz
      omega
    · exact ⟨a1, a2⟩

theorem bidx_lt {len i : ℕ} (h : i < len) : bidx len i = i := by
  unfold bidx; split <;> omega

theorem bdim_self (e : Err) (a : ℕ) : bdim e a a = .ok a := by unfold bdim; rw [if_pos rfl]

/-- The errors of the selected components at time step `t`. -/
def GList.errRow (g : GList) (js : List ℕ) (t : ℕ) : Vec js.length := fun a => g.error t (js.getD a.val 0)

theorem mapM_range_total {β : Type} (g : ℕ → Except Err β) (c : ℕ → β) : ∀ (l : List ℕ), (∀ i ∈ l, g i = .ok (c i)) →
    l.mapM g = .ok (l.map c)
  | [], _ => rfl
  | a :: l, h => by
    rw [List.mapM_cons, h a (by simp), ok_bindE, mapM_range_total g c l (fun i hi => h i (by simp [hi])), ok_bindE]
    rfl

/-- `nees` on aligned indices. -/
theorem nees2_aligned {g : GList} {ts js : List ℕ} (hd : ∀ t ∈ ts, (g.block js t).det ≠ 0) :
    nees2 g ts js ts js = .ok (ts.map fun t => g.errRow js t ⬝ᵥ (g.block js t)⁻¹ *ᵥ g.errRow js t) := by
  unfold nees2
  rw [raiseIf_no (by simp), ok_bindE]
  simp only
  have hy : ∀ t ∈ List.range ts.length, solve (g.block js (ts.getD t 0)) (Matrix.of fun j (_ : Fin 1) =>
      g.error (ts.getD ((t * js.length + j.val) / js.length) 0) (js.getD ((t * js.length + j.val) % js.length) 0)) =
      .ok ((g.block js (ts.getD t 0))⁻¹ * Matrix.of fun j (_ : Fin 1) => g.errRow js (ts.getD t 0) j) := by
    intro t ht
    rw [List.mem_range] at ht
    have hmem : ts.getD t 0 ∈ ts := by
      rw [List.getD_eq_getElem?_getD, List.getElem?_eq_getElem ht]; exact List.getElem_mem ht
    rw [solve_ok (hd _ hmem)]
    congr 2
    ext j c
    have hj := j.isLt
    have hpos : 0 < js.length := by omega
    simp only [of_apply, GList.errRow]
    rw [show (t * js.length + j.val) / js.length = t by
      rw [mul_comm, Nat.mul_add_div hpos, Nat.div_eq_of_lt hj, add_zero],
      show (t * js.length + j.val) % js.length = j.val by
        rw [mul_comm, Nat.mul_add_mod, Nat.mod_eq_of_lt hj]]
  rw [mapM_range_total _ _ _ hy, ok_bindE, bdim_self, ok_bindE, bdim_self, ok_bindE]
  show Except.ok _ = Except.ok _
  congr 1
  apply List.ext_getElem
  · simp
  · intro i h1 h2
    simp only [List.length_map, List.length_range] at h1 h2
    simp only [List.getElem_map, List.getElem_range]
    have hti : ts.getD i 0 = ts[i] := by rw [List.getD_eq_getElem?_getD, List.getElem?_eq_getElem h2]; rfl
    rw [bidx_lt h2, hti, Finset.sum_range]
    have hys : ∀ (f : ℕ → Matrix (Fin js.length) (Fin 1) ℝ), ((List.range ts.length).map f).getD i 0 = f i := by
      intro f
      rw [List.getD_eq_getElem?_getD, List.getElem?_map, List.getElem?_range h2]; rfl
    simp only [dotProduct]
    refine Finset.sum_congr rfl fun a _ => ?_
    rw [bidx_lt a.isLt, dif_pos a.isLt, hys, hti]
    rfl

/-- **C55.** The `nees` of aligned slices is that of the selected components: `e_S^T P_SS^-1 e_S` at each selected time
step. -/
theorem C55_nees (g : GList) (k1 k2 : Key) (out : GSlice) (ts js : List ℕ) (h : getItem g k1 k2 = .ok out)
    (herr : out.err = .twoD ts js) (h1 : out.covT = ts) (h2 : out.covC = js) :
    out.nees = ts.map (fun t => g.errRow js t ⬝ᵥ (g.block js t)⁻¹ *ᵥ g.errRow js t) ∧
    out.ees = ts.map (fun t => ∑ a, g.errRow js t a ^ 2) := by
  obtain ⟨r1, r2, e1, e2, e3, e4, e5, e6, e7⟩ := getItem_parts h
  rw [herr, h1, h2] at e6
  simp only [neesOf] at e6
  have hd : ∀ t ∈ ts, (g.block js t).det ≠ 0 := by
    have e6' := e6
    unfold nees2 at e6'
    obtain ⟨_, _, e6'⟩ := bind_ok e6'
    obtain ⟨ys, hys, _⟩ := bind_ok e6'
    obtain ⟨k1, k2⟩ := mapM_get hys
    intro t ht
    obtain ⟨i, hi, rfl⟩ := List.getElem_of_mem ht
    rw [List.length_range] at k1
    obtain ⟨i', hi', hs⟩ := k2 i _ (List.getElem?_eq_getElem (show i < ys.length by omega))
    rw [List.getElem?_range hi] at hi'
    cases hi'
    have := (solve_eq_ok hs).1
    rwa [List.getD_eq_getElem?_getD, List.getElem?_eq_getElem hi] at this
  rw [nees2_aligned hd] at e6
  refine ⟨(Except.ok.inj e6).symm, ?_⟩
  rw [e7, herr]
  simp only [eesOf]
  congr 1
  funext t
  simp only [GList.errRow]
  rw [← List.sum_ofFn]
  congr 1
  apply List.ext_getElem
  · simp
  · intro i h1 h2
    simp only [List.length_map] at h1
    simp only [List.getElem_map, List.getElem_ofFn]
    rw [List.getD_eq_getElem?_getD, List.getElem?_eq_getElem h1]; rfl

/-- A key within an axis of length `len`: a slice with a positive step from a nonnegative start to a stop between 0 and
`len`, or a list of nonnegative indices. -/
def Key.InRange (len : ℕ) : Key → Prop
  | .slice s e k => 0 < k.getD 1 ∧ 0 ≤ s.getD 0 ∧ 0 ≤ e.getD len ∧ e.getD len ≤ len
  | .list l => ∀ i ∈ l, 0 ≤ i ∧ i < len
  | _ => False

/-- The indices that such a key stands for. -/
def Key.Selects (len : ℕ) (k : Key) (ts : List ℕ) : Prop :=
  match k with
  | .slice s e st => ts.Pairwise (· < ·) ∧
      ∀ t : ℕ, t ∈ ts ↔ ∃ i : ℕ, (t : ℤ) = s.getD 0 + i * st.getD 1 ∧ (t : ℤ) < e.getD len
  | .list l => ts.map (fun t : ℕ => (t : ℤ)) = l
  | _ => False

theorem mapM_wrap {len : ℕ} : ∀ (l : List ℤ), (∀ i ∈ l, 0 ≤ i ∧ i < len) →
    l.mapM (wrapIdx len) = .ok (l.map Int.toNat)
  | [], _ => rfl
  | a :: l, h => by
    have ha : wrapIdx len a = .ok a.toNat := by unfold wrapIdx; rw [if_pos (h a (by simp))]
    rw [List.mapM_cons, ha, ok_bindE, mapM_wrap l (fun i hi => h i (by simp [hi])), ok_bindE]
    rfl

theorem inRange_key {len : ℕ} {k : Key} (h : k.InRange len) :
    ∃ r ts, k.raw len = .ok r ∧ r.mapM (wrapIdx len) = .ok ts ∧ k.idx len = .ok ts ∧ k.Selects len ts := by
  cases k with
  | int i => exact h.elim
  | other => exact h.elim
  | list l =>
    refine ⟨l, l.map Int.toNat, rfl, mapM_wrap l h, mapM_wrap l h, ?_⟩
    show (l.map Int.toNat).map (fun t : ℕ => (t : ℤ)) = l
    rw [List.map_map]
    conv_rhs => rw [← List.map_id l]
    refine List.map_congr_left fun i hi => ?_
    have := (h i hi).1
    simp [this]
  | slice s e st =>
    obtain ⟨hk, hs, he0, he⟩ := h
    set K := st.getD 1 with hK
    set S := s.getD 0 with hS
    set E := e.getD len with hE
    have hb : sliceStop len K e = E := by
      rw [hE]
      cases e with
      | none => simp only [sliceStop, Option.getD_none, if_pos hk]
      | some e =>
        simp only [Option.getD_some] at hE
        simp only [sliceStop, Option.getD_some, if_pos hk]; rw [if_neg (by omega)]; omega
    have ha : sliceStart len K s = min S len := by
      rw [hS]
      cases s with
      | none => simp only [sliceStart, Option.getD_none, if_pos hk]; omega
      | some s =>
        simp only [Option.getD_some] at hS
        simp only [sliceStart, Option.getD_some, if_pos hk]; rw [if_neg (by omega)]
    have hrange : rangeZ (min S len) E K = rangeZ S E K := by
      rcases le_or_gt S len with h1 | h1
      · rw [min_eq_left h1]
      · have z1 : rangeLen (min S len) E K = 0 := by
          by_contra hh
          have := (lt_rangeLen_pos (s := min S len) (e := E) hk 0).1 (by omega)
          simp only [Nat.cast_zero, zero_mul, add_zero] at this
          omega
        have z2 : rangeLen S E K = 0 := by
          by_contra hh
          have := (lt_rangeLen_pos (s := S) (e := E) hk 0).1 (by omega)
          simp only [Nat.cast_zero, zero_mul, add_zero] at this
          omega
        unfold rangeZ
        rw [z1, z2]
        rfl
    have hmem : ∀ z, z ∈ rangeZ S E K ↔ ∃ i : ℕ, z = S + i * K ∧ z < E := by
      intro z
      unfold rangeZ
      simp only [List.mem_map, List.mem_range]
      constructor
      · rintro ⟨i, hi, rfl⟩
        exact ⟨i, rfl, (lt_rangeLen_pos hk i).1 hi⟩
      · rintro ⟨i, rfl, hz⟩
        exact ⟨i, (lt_rangeLen_pos hk i).2 hz, rfl⟩
    have hin : ∀ z ∈ rangeZ S E K, 0 ≤ z ∧ z < len := by
      intro z hz
      obtain ⟨i, rfl, hz⟩ := (hmem z).1 hz
      constructor
      · positivity
      · omega
    refine ⟨rangeZ S E K, (rangeZ S E K).map Int.toNat, ?_, mapM_wrap _ hin, ?_, ?_, ?_⟩
    · simp only [Key.raw]; rw [if_neg (by rw [← hK]; exact hk.ne')]
    · simp only [Key.idx]
      rw [if_neg (by rw [← hK]; exact hk.ne')]
      unfold sliceIdx
      rw [← hK, ha, hb, hrange]
    · rw [List.pairwise_map]
      have : (rangeZ S E K).Pairwise (· < ·) := by
        unfold rangeZ
        rw [List.pairwise_map]
        refine List.Pairwise.imp ?_ List.pairwise_lt_range
        intro a b hab
        have : (a : ℤ) < b := by exact_mod_cast hab
        nlinarith
      refine List.Pairwise.imp_of_mem ?_ this
      intro a b h1 h2 hab
      have := (hin a h1).1
      have := (hin b h2).1
      omega
    · intro t
      simp only [List.mem_map]
      constructor
      · rintro ⟨z, hz, rfl⟩
        have h0 := (hin z hz).1
        obtain ⟨i, h1, h2⟩ := (hmem z).1 hz
        have h3 : ((z.toNat : ℕ) : ℤ) = z := by omega
        exact ⟨i, by rw [h3]; exact h1, by rw [h3]; exact h2⟩
      · rintro ⟨i, h1, h2⟩
        exact ⟨(t : ℤ), (hmem _).2 ⟨i, h1, h2⟩, by simp⟩

/-- **C55.** `results[k1, k2]` with slices within range (or a slice and a list) returns the selected errors together with
the covariances of the same time steps and components, if these covariances are invertible. -/
theorem C55_documented (g : GList) (k1 k2 : Key) (h1 : k1.InRange g.T) (h2 : k2.InRange g.D)
    (hnl : ∀ l l', ¬ (k1 = .list l ∧ k2 = .list l'))
    (hd : ∀ ts js, k1.Selects g.T ts → k2.Selects g.D js → ∀ t ∈ ts, (g.block js t).det ≠ 0) :
    ∃ out ts js, getItem g k1 k2 = .ok out ∧ out.err = .twoD ts js ∧ out.covT = ts ∧ out.covC = js ∧
      k1.Selects g.T ts ∧ k2.Selects g.D js := by
  obtain ⟨r1, ts, a1, a2, a3, a4⟩ := inRange_key h1
  obtain ⟨r2, js, b1, b2, b3, b4⟩ := inRange_key h2
  have herr : errIndex g.T g.D k1 k2 = .ok (.twoD ts js) := by
    unfold errIndex
    rw [a3, ok_bindE, b3, ok_bindE]
    cases k1 with
    | int i => exact h1.elim
    | other => exact h1.elim
    | slice s e st =>
      cases k2 with
      | int i => exact h2.elim
      | other => exact h2.elim
      | slice s' e' st' => rfl
      | list l => rfl
    | list l =>
      cases k2 with
      | int i => exact h2.elim
      | other => exact h2.elim
      | slice s' e' st' => rfl
      | list l' => exact absurd ⟨rfl, rfl⟩ (hnl l l')
  refine ⟨⟨.twoD ts js, ts, js, eesOf g (.twoD ts js),
    ts.map fun t => g.errRow js t ⬝ᵥ (g.block js t)⁻¹ *ᵥ g.errRow js t⟩, ts, js, ?_, rfl, rfl, rfl, a4, b4⟩
  · unfold getItem
    rw [a1, ok_bindE, b1, ok_bindE, a2, ok_bindE, b2, ok_bindE, herr, ok_bindE]
    simp only [neesOf]
    rw [nees2_aligned (hd ts js a4 b4), ok_bindE]
    rfl

/-- The full slice `:`. -/
def Key.all : Key := .slice none none none

theorem full_key (len : ℕ) : Key.all.raw len = .ok ((List.range len).map fun i : ℕ => (i : ℤ)) ∧
    ((List.range len).map fun i : ℕ => (i : ℤ)).mapM (wrapIdx len) = .ok (List.range len) ∧
    Key.all.idx len = .ok (List.range len) := by
  have hr : rangeZ 0 len 1 = (List.range len).map fun i : ℕ => (i : ℤ) := by
    unfold rangeZ
    have : rangeLen 0 len 1 = len := by unfold rangeLen; simp
    rw [this]
    simp
  refine ⟨?_, ?_, ?_⟩
  · simp only [Key.all, Key.raw, Option.getD_none]
    rw [if_neg (by norm_num), hr]
  · rw [mapM_wrap _ (by simp), List.map_map]
    congr 1
    conv_rhs => rw [← List.map_id (List.range len)]
    exact List.map_congr_left fun i _ => by simp
  · simp only [Key.all, Key.idx, Option.getD_none]
    rw [if_neg (by norm_num)]
    have : sliceIdx len none none 1 = (rangeZ 0 len 1).map Int.toNat := by
      simp [sliceIdx, sliceStart, sliceStop]
    rw [this, hr, List.map_map]
    congr 1
    conv_rhs => rw [← List.map_id (List.range len)]
    exact List.map_congr_left fun i _ => by simp

/-- **C55, false part.** `results[-1:, 0]`, the first component at the last time step: for every list of results
(with nonzero variances) the call returns one error — the right one — but `T + 1` covariances and `T + 1` values of
`nees`: those of the last step, followed by those of all steps from the first one. -/
theorem C55_last_step_misaligned (g : GList) (hT : 0 < g.T) (hD : 0 < g.D) (hv : ∀ t, t < g.T → g.cov t 0 0 ≠ 0) :
    ∃ out, getItem g (.slice (some (-1)) none none) (.int 0) = .ok out ∧ out.err = .oneD [(g.T - 1, 0)] ∧
      out.covT = (g.T - 1) :: List.range g.T ∧ out.covC = [0] ∧ out.nees.length = g.T + 1 ∧
      ∀ i, i < g.T → out.nees[i + 1]? = some (g.error (g.T - 1) 0 ^ 2 / g.cov i 0 0) := by
  have hraw : (Key.slice (some (-1)) none none).raw g.T = .ok (-1 :: (List.range g.T).map fun i : ℕ => (i : ℤ)) := by
    simp only [Key.raw, Option.getD_none, Option.getD_some]
    rw [if_neg (by norm_num)]
    unfold rangeZ
    have : rangeLen (-1) g.T 1 = g.T + 1 := by unfold rangeLen; simp
    rw [this, List.range_succ_eq_map]
    simp
  have hw : wrapIdx g.T (-1) = .ok (g.T - 1) := by
    unfold wrapIdx
    rw [if_neg (by omega), if_pos (by omega)]
    congr 1
    omega
  have hw0 : wrapIdx g.D 0 = .ok 0 := by
    unfold wrapIdx; rw [if_pos (by omega)]; rfl
  have hct : (-1 :: (List.range g.T).map fun i : ℕ => (i : ℤ)).mapM (wrapIdx g.T) = .ok ((g.T - 1) :: List.range g.T) := by
    rw [List.mapM_cons, hw, ok_bindE, (full_key g.T).2.1, ok_bindE]
    rfl
  have hcj : ([0] : List ℤ).mapM (wrapIdx g.D) = .ok [0] := by
    rw [List.mapM_cons, hw0, ok_bindE]; rfl
  have hidx : (Key.slice (some (-1)) none none).idx g.T = .ok [g.T - 1] := by
    simp only [Key.idx, Option.getD_none]
    rw [if_neg (by norm_num)]
    have e1 : sliceStart g.T 1 (some (-1)) = (g.T : ℤ) - 1 := by
      simp only [sliceStart]; rw [if_pos (by norm_num), if_pos (by norm_num)]; omega
    have e2 : sliceStop g.T 1 none = g.T := by simp [sliceStop]
    unfold sliceIdx
    rw [e1, e2]
    have e3 : rangeLen ((g.T : ℤ) - 1) g.T 1 = 1 := by unfold rangeLen; simp
    unfold rangeZ
    rw [e3]
    simp
  have herr : errIndex g.T g.D (.slice (some (-1)) none none) (.int 0) = .ok (.oneD [(g.T - 1, 0)]) := by
    unfold errIndex
    rw [hidx, ok_bindE]
    simp only [Key.idx, hw0]
    rfl
  set cts := (g.T - 1) :: List.range g.T with hcts
  have hflat : (cts.flatMap fun t => [0].flatMap fun a => [0].map fun b => g.cov t a b) =
      cts.map fun t => g.cov t 0 0 := by
    simp only [List.flatMap_cons, List.flatMap_nil, List.map_cons, List.map_nil, List.append_nil]
    exact List.flatMap_pure_eq_map _ _
  have hmem : ∀ t ∈ cts, t < g.T := by
    intro t ht
    rcases List.mem_cons.1 ht with rfl | ht
    · omega
    · exact List.mem_range.1 ht
  have hn1 : nees1 g [(g.T - 1, 0)] cts [0] = .ok ((List.range (g.T + 1)).map fun i =>
      g.error (g.T - 1) 0 ^ 2 / (cts.map fun t => g.cov t 0 0).getD i 0) := by
    unfold nees1
    simp only [hflat]
    have hl : (cts.map fun t => g.cov t 0 0).length = g.T + 1 := by simp [hcts]
    have hb : bdim Err.valueError [(g.T - 1, 0)].length (cts.map fun t => g.cov t 0 0).length = .ok (g.T + 1) := by
      rw [hl]
      unfold bdim
      rw [if_neg (by simp; omega), if_pos (by simp)]
    rw [hb, ok_bindE, raiseIf_no (by
      rintro ⟨v, hv1, hv2⟩
      obtain ⟨t, ht, rfl⟩ := List.mem_map.1 hv1
      exact hv t (hmem t ht) hv2), ok_bindE]
    show Except.ok _ = Except.ok _
    congr 1
    refine List.map_congr_left fun i hi => ?_
    rw [List.mem_range] at hi
    rw [bidx_lt (len := (cts.map fun t => g.cov t 0 0).length) (by rw [hl]; exact hi)]
    rfl
  refine ⟨⟨.oneD [(g.T - 1, 0)], cts, [0], eesOf g (.oneD [(g.T - 1, 0)]), (List.range (g.T + 1)).map fun i =>
    g.error (g.T - 1) 0 ^ 2 / (cts.map fun t => g.cov t 0 0).getD i 0⟩, ?_, rfl, rfl, rfl, ?_, ?_⟩
  · unfold getItem
    rw [hraw, ok_bindE]
    simp only [Key.raw]
    rw [ok_bindE, hct, ok_bindE, hcj, ok_bindE, herr, ok_bindE]
    simp only [neesOf]
    rw [hn1, ok_bindE]
    rfl
  · simp
  · intro i hi
    simp only [List.getElem?_map]
    rw [List.getElem?_range (by omega)]
    simp only [Option.map_some, Option.some.injEq, hcts, List.map_cons, List.getD_cons_succ]
    rw [List.getD_eq_getElem?_getD, List.getElem?_map, List.getElem?_range hi]
    rfl

/-- **C55, false part.** `results[:-2:-2]` returns the error of the last time step with the covariance of the first one,
for every list of at least two results. -/
theorem C55_negative_step_misaligned (g : GList) (hT : 2 ≤ g.T) (hd : (g.block (List.range g.D) 0).det ≠ 0) :
    ∃ out, getItem g (.slice none (some (-2)) (some (-2))) Key.all = .ok out ∧
      out.err = .twoD [g.T - 1] (List.range g.D) ∧ out.covT = [0] ∧ out.covC = List.range g.D := by
  have hraw : (Key.slice none (some (-2)) (some (-2))).raw g.T = .ok [0] := by
    simp only [Key.raw, Option.getD_none, Option.getD_some]
    rw [if_neg (by norm_num)]
    rfl
  have hct : ([0] : List ℤ).mapM (wrapIdx g.T) = .ok [0] := by
    have hw0 : wrapIdx g.T 0 = .ok 0 := by unfold wrapIdx; rw [if_pos (by omega)]; rfl
    rw [List.mapM_cons, hw0, ok_bindE]; rfl
  have hidx : (Key.slice none (some (-2)) (some (-2))).idx g.T = .ok [g.T - 1] := by
    simp only [Key.idx, Option.getD_some]
    rw [if_neg (by norm_num)]
    have e1 : sliceStart g.T (-2) none = (g.T : ℤ) - 1 := by simp [sliceStart]
    have e2 : sliceStop g.T (-2) (some (-2)) = (g.T : ℤ) - 2 := by
      simp only [sliceStop]; rw [if_pos (by norm_num), if_neg (by norm_num)]; omega
    unfold sliceIdx
    rw [e1, e2]
    have e3 : rangeLen ((g.T : ℤ) - 1) ((g.T : ℤ) - 2) (-2) = 1 := by
      unfold rangeLen
      rw [if_neg (by norm_num)]
      have : ((g.T : ℤ) - 1 - ((g.T : ℤ) - 2) + (-(-2) - 1)) = 2 := by ring
      rw [this]
      rfl
    unfold rangeZ
    rw [e3]
    simp
  obtain ⟨f1, f2, f3⟩ := full_key g.D
  have herr : errIndex g.T g.D (.slice none (some (-2)) (some (-2))) Key.all =
      .ok (.twoD [g.T - 1] (List.range g.D)) := by
    unfold errIndex
    rw [hidx, ok_bindE, f3, ok_bindE]
    rfl
  have hn : ∃ ns, nees2 g [g.T - 1] (List.range g.D) [0] (List.range g.D) = .ok ns := by
    unfold nees2
    rw [raiseIf_no (by simp), ok_bindE]
    simp only
    have hm : ∀ f : ℕ → Matrix (Fin (List.range g.D).length) (Fin 1) ℝ, ∃ ys, (List.range ([0] : List ℕ).length).mapM (fun t =>
        solve (g.block (List.range g.D) (([0] : List ℕ).getD t 0)) (f t)) = .ok ys := by
      intro f
      have : List.range ([0] : List ℕ).length = [0] := rfl
      rw [this, List.mapM_cons]
      have : solve (g.block (List.range g.D) (([0] : List ℕ).getD 0 0)) (f 0) = .ok _ := solve_ok hd _
      rw [this, ok_bindE]
      exact ⟨_, rfl⟩
    obtain ⟨ys, hys⟩ := hm (fun t => Matrix.of fun j (_ : Fin 1) =>
      g.error ([g.T - 1].getD ((t * (List.range g.D).length + j.val) / (List.range g.D).length) 0)
        ((List.range g.D).getD ((t * (List.range g.D).length + j.val) % (List.range g.D).length) 0))
    rw [hys, ok_bindE, show [g.T - 1].length = ([0] : List ℕ).length from rfl, bdim_self, ok_bindE, bdim_self, ok_bindE]
    exact ⟨_, rfl⟩
  obtain ⟨ns, hn⟩ := hn
  refine ⟨⟨.twoD [g.T - 1] (List.range g.D), [0], List.range g.D, eesOf g (.twoD [g.T - 1] (List.range g.D)), ns⟩, ?_,
    rfl, rfl, rfl⟩
  unfold getItem
  rw [hraw, ok_bindE, f1, ok_bindE, hct, ok_bindE, f2, ok_bindE, herr, ok_bindE]
  simp only [neesOf]
  rw [hn, ok_bindE]
  rfl

/-- **C55, false part.** `results[t]`, a single time step, raises for every list with two or more degrees of freedom. -/
theorem C55_single_step_raises (g : GList) (t : ℤ) (hD : 2 ≤ g.D) : ∀ out, getItem g (.int t) Key.all ≠ .ok out := by
  intro out h
  obtain ⟨r1, r2, e1, e2, e3, e4, e5, e6, _⟩ := getItem_parts h
  obtain ⟨f1, f2, f3⟩ := full_key g.D
  rw [f1] at e2
  cases e2
  rw [f2] at e4
  replace e4 := Except.ok.inj e4
  cases e1
  have hlen : out.covT.length = 1 := by
    have := (mapM_get e3).1
    simpa using this
  obtain ⟨c, hc⟩ := List.length_eq_one_iff.1 hlen
  unfold errIndex at e5
  obtain ⟨ts, e5a, e5⟩ := bind_ok e5
  obtain ⟨js, e5b, e5⟩ := bind_ok e5
  rw [f3] at e5b
  cases e5b
  have e5' : out.err = .oneD ((List.range g.D).map fun j => (ts.getD 0 0, j)) := (Except.ok.inj e5).symm
  rw [e5', ← e4, hc] at e6
  simp only [neesOf] at e6
  unfold nees1 at e6
  obtain ⟨N, e7, _⟩ := bind_ok e6
  have hl : ([c].flatMap fun t => (List.range g.D).flatMap fun a => (List.range g.D).map fun b => g.cov t a b).length =
      g.D * g.D := by
    simp [List.length_flatMap]
  rw [hl, List.length_map, List.length_range] at e7
  unfold bdim at e7
  rw [if_neg (by nlinarith), if_neg (by omega), if_neg (by nlinarith)] at e7
  cases e7

/-- **C55, false part.** `results[t, j]` raises for all lists and indices. -/
theorem C55_single_entry_raises (g : GList) (t j : ℤ) : ∀ out, getItem g (.int t) (.int j) ≠ .ok out := by
  intro out h
  obtain ⟨r1, r2, e1, e2, e3, e4, e5, e6, _⟩ := getItem_parts h
  unfold errIndex at e5
  obtain ⟨ts, e5a, e5⟩ := bind_ok e5
  obtain ⟨js, e5b, e5⟩ := bind_ok e5
  have e5' : out.err = .scalar (ts.getD 0 0) (js.getD 0 0) := (Except.ok.inj e5).symm
  rw [e5'] at e6
  cases e6

/-- **C55, false part.** A slice that ends beyond the last time step raises, although Python's slices are cut off. -/
theorem C55_stop_beyond_end_raises (g : GList) (stop : ℤ) (h : (g.T : ℤ) < stop) (k2 : Key) :
    ∀ out, getItem g (.slice none (some stop) none) k2 ≠ .ok out := by
  intro out hh
  obtain ⟨r1, r2, e1, e2, e3, e4, e5, e6, _⟩ := getItem_parts hh
  simp only [Key.raw, Option.getD_none, Option.getD_some] at e1
  rw [if_neg (by norm_num)] at e1
  cases e1
  obtain ⟨h1, h2⟩ := mapM_get e3
  rw [rangeZ_length] at h1
  have hlt : g.T < out.covT.length := by
    rw [h1]
    exact (lt_rangeLen_pos (by norm_num) g.T).2 (by simpa using h)
  obtain ⟨z, hz, hw⟩ := h2 g.T _ (List.getElem?_eq_getElem hlt)
  obtain ⟨_, rfl⟩ := rangeZ_get hz
  have := wrapIdx_ok hw
  omega

/-- **C55, false part.** `results[:, j].ees` has one entry, the sum over all time steps, although it is documented as one
value for each time step. -/
theorem C55_column_ees (g : GList) (j : ℕ) (hj : j < g.D) (hv : ∀ t, t < g.T → g.cov t j j ≠ 0) :
    ∃ out, getItem g Key.all (.int j) = .ok out ∧ out.covT = List.range g.T ∧ out.covC = [j] ∧
      out.err = .oneD ((List.range g.T).map fun t => (t, j)) ∧
      out.ees = [∑ t ∈ Finset.range g.T, g.error t j ^ 2] ∧
      out.nees = (List.range g.T).map fun t => g.error t j ^ 2 / g.cov t j j := by
  obtain ⟨f1, f2, f3⟩ := full_key g.T
  have hw0 : wrapIdx g.D j = .ok j := by
    unfold wrapIdx; rw [if_pos (by omega)]; rfl
  have hcj : ([(j : ℤ)] : List ℤ).mapM (wrapIdx g.D) = .ok [j] := by
    rw [List.mapM_cons, hw0, ok_bindE]; rfl
  have herr : errIndex g.T g.D Key.all (.int j) = .ok (.oneD ((List.range g.T).map fun t => (t, j))) := by
    unfold errIndex
    rw [f3, ok_bindE]
    simp only [Key.idx, hw0]
    rfl
  have hflat : ((List.range g.T).flatMap fun t => [j].flatMap fun a => [j].map fun b => g.cov t a b) =
      (List.range g.T).map fun t => g.cov t j j := by
    simp only [List.flatMap_cons, List.flatMap_nil, List.map_cons, List.map_nil, List.append_nil]
    exact List.flatMap_pure_eq_map _ _
  have hn1 : nees1 g ((List.range g.T).map fun t => (t, j)) (List.range g.T) [j] =
      .ok ((List.range g.T).map fun t => g.error t j ^ 2 / g.cov t j j) := by
    unfold nees1
    simp only [hflat]
    rw [List.length_map, List.length_map, bdim_self, ok_bindE, raiseIf_no (by
      rintro ⟨v, hv1, hv2⟩
      obtain ⟨t, ht, rfl⟩ := List.mem_map.1 hv1
      exact hv t (List.mem_range.1 ht) hv2), ok_bindE]
    show Except.ok _ = Except.ok _
    congr 1
    rw [List.length_range]
    refine List.map_congr_left fun i hi => ?_
    rw [List.mem_range] at hi
    rw [bidx_lt hi]
    simp only [List.getD_eq_getElem?_getD, List.getElem?_map, List.getElem?_range hi, Option.map_some, Option.getD_some]
  refine ⟨⟨.oneD ((List.range g.T).map fun t => (t, j)), List.range g.T, [j],
    eesOf g (.oneD ((List.range g.T).map fun t => (t, j))),
    (List.range g.T).map fun t => g.error t j ^ 2 / g.cov t j j⟩, ?_, rfl, rfl, rfl, ?_, rfl⟩
  · unfold getItem
    rw [f1, ok_bindE]
    simp only [Key.raw]
    rw [ok_bindE, f2, ok_bindE, hcj, ok_bindE, herr, ok_bindE]
    simp only [neesOf]
    rw [hn1, ok_bindE]
    rfl
  · simp only [eesOf, List.map_map]
    congr 1

example : ∃ g : GList, 2 ≤ g.T ∧ 0 < g.D ∧ (∀ t, t < g.T → g.cov t 0 0 ≠ 0) ∧ (g.block (List.range g.D) 0).det ≠ 0 :=
  ⟨⟨5, 1, fun t _ => t, fun t _ _ => t + 1⟩, by simp, by simp, fun t _ => by positivity, by
    simp only [GList.block]
    rw [Matrix.det_eq_elem_of_card_eq_one (by simp) (⟨0, by simp⟩ : Fin (List.range 1).length)]
    show ((0 : ℕ) : ℝ) + 1 ≠ 0
    norm_num⟩

example : (Key.slice (some 1) (some 4) (some 2)).InRange 5 ∧ (Key.slice (some 1) (some 4) (some 2)).Selects 5 [1, 3] := by
  refine ⟨by simp [Key.InRange], by simp, fun t => ?_⟩
  simp only [List.mem_cons, List.not_mem_nil, or_false, Option.getD_some]
  constructor
  · rintro (rfl | rfl)
    · exact ⟨0, by norm_num, by norm_num⟩
    · exact ⟨1, by norm_num, by norm_num⟩
  · rintro ⟨i, h1, h2⟩
    omega

end Verif
