import Verif.Props.Mixture
import Mathlib.Analysis.Calculus.Deriv.Mul
import Mathlib.Analysis.Calculus.Deriv.Add
import Mathlib.Analysis.SpecialFunctions.ExpDeriv
import Mathlib.Analysis.SpecialFunctions.Log.Deriv

/-!
Property theorems about the Jacobians of Gaussian mixture residuals (C70): the gradient `eᵀ J` that a least squares
solver computes from the mixture's error and Jacobian is the gradient of the mixture's negative log-likelihood.
-/

namespace Verif

set_option linter.unusedVariables false
set_option linter.unusedSectionVars false

variable {K S : Type} [DecidableEq K]

theorem rowTimes_single (e : List ℝ) (x : ℝ) (m n : ℕ) (g : ℕ → ℕ → ℝ) (j : ℕ) (hm : m = e.length) :
    rowTimes (e ++ [x]) ⟨m + 1, n, g⟩ j = rowTimes e ⟨m, n, g⟩ j + x * g m j := by
  subst hm
  unfold rowTimes
  simp only [List.length_append, List.length_singleton]
  rw [Finset.sum_range_succ]
  congr 1
  · apply Finset.sum_congr rfl
    intro i hi
    have hi := Finset.mem_range.1 hi
    simp [List.getD, List.getElem?_append_left hi]
  · simp [List.getD]

theorem rowTimes_append (a b : List ℝ) (J : DMat) (j : ℕ) :
    rowTimes (a ++ b) J j = rowTimes a J j + ∑ i ∈ Finset.range b.length, b.getD i 0 * J.get (a.length + i) j := by
  unfold rowTimes
  rw [List.length_append, Finset.sum_range_add]
  congr 1
  · apply Finset.sum_congr rfl
    intro i hi
    have hi := Finset.mem_range.1 hi
    simp [List.getD, List.getElem?_append_left hi]
  · apply Finset.sum_congr rfl
    intro i _
    simp [List.getD, List.getElem?_append_right (Nat.le_add_right _ _)]

theorem rowTimes_congr (e : List ℝ) (A B : DMat) (j : ℕ) (h : ∀ i < e.length, A.get i j = B.get i j) :
    rowTimes e A j = rowTimes e B j := by
  unfold rowTimes
  apply Finset.sum_congr rfl
  intro i hi
  rw [h i (Finset.mem_range.1 hi)]

theorem vstack_ok {A B R : DMat} (h : A.vstack B = .ok R) : A.cols = B.cols ∧ R.cols = A.cols ∧
    R.rows = A.rows + B.rows ∧ ∀ i j, R.get i j = if i < A.rows then A.get i j else B.get (i - A.rows) j := by
  unfold DMat.vstack at h
  split at h
  · rename_i hc
    cases h
    exact ⟨hc, rfl, rfl, fun _ _ => rfl⟩
  · cases h

/-- `Σ_k p_k Σ_i e_k,i J_k,ij`: the gradient of the mixture's negative log-likelihood, column `j`. -/
def gradSum : List ℝ → List (List ℝ) → List DMat → ℕ → ℝ
  | p :: ps, e :: es, J :: Js, j => p * (∑ i ∈ Finset.range e.length, e.getD i 0 * J.get i j) + gradSum ps es Js j
  | _, _, _, _ => 0

theorem weightedRows_ok {n : ℕ} : ∀ {ps : List ℝ} {es : List (List ℝ)} {Js : List (Option DMat)} {s : ℕ → ℝ},
    ps.length = es.length → es.length = Js.length → weightedRows n ps es Js = .ok s →
    ∃ Js', Js = Js'.map some ∧ (∀ j, s j = gradSum ps es Js' j) ∧ (∀ J ∈ Js', J.cols = n) ∧
      List.Forall₂ (fun e (J : DMat) => J.rows = e.length) es Js'
  | [], [], [], s, _, _, h => by
    unfold weightedRows at h
    cases h
    exact ⟨[], rfl, fun j => rfl, by simp, .nil⟩
  | p :: ps, e :: es, J :: Js, s, h1, h2, h => by
    unfold weightedRows at h
    obtain ⟨r, h3, h⟩ := bind_ok h
    obtain ⟨t, h4, h⟩ := bind_ok h
    cases h
    obtain ⟨Js', rfl, h5, h6, h7⟩ := weightedRows_ok (by simpa using h1) (by simpa using h2) h4
    cases J with
    | none => cases h3
    | some J =>
      unfold rowMul at h3
      simp only at h3
      split at h3
      · rename_i hc
        cases h3
        refine ⟨J :: Js', rfl, fun j => ?_, ?_, .cons hc.1 h7⟩
        · show p * rowTimes e J j + t j = _
          rw [h5 j]
          rfl
        · intro J' hJ'
          rcases List.mem_cons.1 hJ' with rfl | hJ'
          · exact hc.2
          · exact h6 J' hJ'
      · cases h3
  | [], _ :: _, _, _, h1, _, _ => by simp at h1
  | _ :: _, [], _, _, h1, _, _ => by simp at h1
  | _, [], _ :: _, _, _, h2, _ => by simp at h2
  | _, _ :: _, [], _, _, h2, _ => by simp at h2

theorem stackJacs_ok {n : ℕ} : ∀ {ps : List ℝ} {es : List (List ℝ)} {Js : List (Option DMat)} {R : DMat} (d : ℝ),
    ps.length = es.length → es.length = Js.length → (∀ p ∈ ps, 0 ≤ p) →
    List.Forall₂ (fun e (J : Option DMat) => ∀ J', J = some J' → J'.rows = e.length) es Js →
    stackJacs n ps Js = .ok R →
    ∃ Js', Js = Js'.map some ∧ ∀ j, rowTimes (hsmStack ps es ++ [d]) R j = gradSum ps es Js' j
  | [], [], [], R, d, _, _, _, _, h => by
    unfold stackJacs at h
    cases h
    refine ⟨[], rfl, fun j => ?_⟩
    simp [hsmStack, rowTimes, DMat.row, gradSum]
  | p :: ps, e :: es, J :: Js, R, d, h1, h2, hp, hsh, h => by
    cases J with
    | none => cases h
    | some J =>
      obtain ⟨hr, hsh⟩ := List.forall₂_cons.1 hsh
      have hr := hr J rfl
      unfold stackJacs at h
      obtain ⟨R', h3, hv⟩ := bind_ok h
      obtain ⟨Js', rfl, h5⟩ := stackJacs_ok d (by simpa using h1) (by simpa using h2)
        (fun q hq => hp q (by simp [hq])) hsh h3
      obtain ⟨hc, h6, h7, h8⟩ := vstack_ok hv
      refine ⟨J :: Js', rfl, fun j => ?_⟩
      have hst : hsmStack (p :: ps) (e :: es) ++ [d] = e.map (Real.sqrt p * ·) ++ (hsmStack ps es ++ [d]) := by
        simp [hsmStack]
      rw [hst, rowTimes_append]
      show _ = p * (∑ i ∈ Finset.range e.length, e.getD i 0 * J.get i j) + gradSum ps es Js' j
      rw [← h5 j]
      congr 1
      · unfold rowTimes
        rw [List.length_map, Finset.mul_sum]
        apply Finset.sum_congr rfl
        intro i hi
        have hi := Finset.mem_range.1 hi
        rw [h8 i j, if_pos (show i < (J.scale (Real.sqrt p)).rows from by
          show i < J.rows
          rw [hr]; exact hi)]
        have hs := Real.mul_self_sqrt (hp p (by simp))
        have e1 : (e.map (Real.sqrt p * ·)).getD i 0 = Real.sqrt p * e.getD i 0 := by
          simp [List.getD, List.getElem?_eq_getElem hi]
        rw [e1]
        show Real.sqrt p * e.getD i 0 * (Real.sqrt p * J.get i j) = _
        calc Real.sqrt p * e.getD i 0 * (Real.sqrt p * J.get i j)
            = (Real.sqrt p * Real.sqrt p) * (e.getD i 0 * J.get i j) := by ring
          _ = _ := by rw [hs]
      · unfold rowTimes
        apply Finset.sum_congr rfl
        intro i _
        rw [h8, if_neg (by
          show ¬ (e.map (Real.sqrt p * ·)).length + i < J.rows
          rw [hr, List.length_map]; omega)]
        congr 2
        show (e.map (Real.sqrt p * ·)).length + i - J.rows = i
        rw [hr, List.length_map]; omega
  | [], _ :: _, _, _, _, h1, _, _, _, _ => by simp at h1
  | _ :: _, [], _, _, _, h1, _, _, _, _ => by simp at h1
  | _, [], _ :: _, _, _, _, h2, _, _, _ => by simp at h2
  | _, _ :: _, [], _, _, _, h2, _, _, _ => by simp at h2

theorem hsmWeights_shift (c : ℝ) {al : List ℝ} {es : List (List ℝ)} (ha : ∀ a ∈ al, 0 < a) (h1 : al ≠ [])
    (h2 : es ≠ []) : hsmWeights c al es = hsmWeights 0 al es := by
  unfold hsmWeights
  rw [zipWith_zip, zipWith_zip]
  apply List.map_congr_left
  intro p _
  have hZ := (sumExp_pos 0 ha h1 h2).ne'
  have hE := Real.exp_ne_zero c
  rw [sumExp_shift c, sub_eq_add_neg, Real.exp_add, zero_sub]
  field_simp

/-- Specification: the posterior probabilities of the components, `α_k exp(-½‖e_k‖²) / Σ_l α_l exp(-½‖e_l‖²)`. -/
noncomputable def respons (al : List ℝ) (es : List (List ℝ)) : List ℝ :=
  List.zipWith (fun a e => a * Real.exp (-halfSq e) /
    ((al.zip es).map fun p => p.1 * Real.exp (-halfSq p.2)).sum) al es

theorem hsmWeights_respons (al : List ℝ) (es : List (List ℝ)) : hsmWeights 0 al es = respons al es := by
  unfold hsmWeights respons
  rw [sumExp_zip]
  simp only [zero_sub]

/-- The mixture has a smooth cost: every kind but the Max-Mixture. -/
def MixKind.smooth : MixKind → Prop
  | .max => False
  | _ => True

theorem jacColumn_length {jss : List (List (Option DMat))} {i : ℕ} {Js : List (Option DMat)}
    (h : jacColumn jss i = .ok Js) : List.Forall₂ (fun js J => js[i]? = some J) jss Js := by
  unfold jacColumn at h
  induction jss generalizing Js with
  | nil => rw [List.mapM_nil] at h; cases h; exact .nil
  | cons js jss ih =>
    rw [List.mapM_cons] at h
    obtain ⟨J, h1, h⟩ := bind_ok h
    obtain ⟨r, h2, h⟩ := bind_ok h
    cases h
    exact .cons (pyGet_iff.1 h1) (ih h2)

/-- **C70 (component level).** For the Sum-, Max-Sum- and Hessian-Sum-Mixtures, `eᵀ J` computed from the mixed error
and the mixed Jacobian is `Σ_k p_k e_kᵀ J_k` with `p_k` the posterior probability of component `k`. -/
theorem mix_gradient (kind : MixKind) (hk : kind.smooth) (al : List ℝ) (vals : List CompVal) (e : List ℝ)
    (jss : List (List (Option DMat))) (i : ℕ) (Js : List (Option DMat)) (R : DMat)
    (hl : al.length = vals.length) (hJl : List.Forall₂ (fun (v : CompVal) (J : Option DMat) =>
      ∀ J', J = some J' → J'.rows = v.e.length) vals Js)
    (he : mixErrors kind al vals = .ok e) (hcol : jacColumn jss i = .ok Js)
    (h : mixJacobian kind al (vals.map CompVal.e) e jss i = .ok (some R)) :
    ∃ Js' : List DMat, Js = Js'.map some ∧
      ∀ j, rowTimes e R j = gradSum (respons al (vals.map CompVal.e)) (vals.map CompVal.e) Js' j := by
  have hlen : (vals.map CompVal.e).length = Js.length := by rw [List.length_map]; exact hJl.length_eq
  unfold mixErrors at he
  obtain ⟨u, hg, he⟩ := bind_ok he
  have hpos := guardAlphas_ok hg
  unfold mixJacobian at h
  rw [hcol, ok_bindE] at h
  set es := vals.map CompVal.e with hes
  have hw : ∀ c, (hsmWeights c al es).length = es.length := by
    intro c; simp [hsmWeights, hl, hes]
  cases kind with
  | max => exact hk.elim
  | maxSum d =>
    replace he : mixMaxSum d al vals = .ok e := he
    unfold mixMaxSum at he
    obtain ⟨k, a1, he⟩ := bind_ok he
    obtain ⟨v, a2, he⟩ := bind_ok he
    split at he
    · cases he
    obtain ⟨nl, a3, he⟩ := bind_ok he
    cases he
    simp only at h
    obtain ⟨k', b1, h⟩ := bind_ok h
    obtain rfl : k = k' := by rw [a1] at b1; exact Except.ok.inj b1
    obtain ⟨ek, b2, h⟩ := bind_ok h
    have hvk := pyGet_iff.1 a2
    have hek : ek = v.e := by
      have := pyGet_iff.1 b2
      rw [hes, List.getElem?_map, hvk] at this
      exact (Option.some.inj this).symm
    subst hek
    have hene : es ≠ [] := by rw [hes]; simpa using ne_of_get hvk
    have hane : al ≠ [] := by
      rintro rfl
      exact ne_of_get hvk (List.length_eq_zero_iff.1 hl.symm)
    unfold drho at h
    rw [hsmWeights_shift _ hpos hane hene, hsmWeights_respons] at h
    unfold jacMaxSum at h
    obtain ⟨J0, c1, h⟩ := bind_ok h
    cases J0 with
    | none => cases h
    | some J0 =>
      simp only at h
      obtain ⟨s, c2, h⟩ := bind_ok h
      obtain ⟨ek', c3, h⟩ := bind_ok h
      obtain ⟨Jk, c4, h⟩ := bind_ok h
      obtain ⟨dd, c5, h⟩ := bind_ok h
      obtain ⟨r, c6, hfin⟩ := bind_ok h
      clear h
      have hek' : ek' = v.e := by rw [b2] at c3; exact (Except.ok.inj c3).symm
      rw [hek'] at c5
      clear c3 hek'
      cases Jk with
      | none => cases hfin
      | some Jk =>
        simp only at hfin
        obtain ⟨R', c7, hfin'⟩ := bind_ok hfin
        clear hfin
        cases hfin'
        obtain ⟨Js', hJs', hs, hcols, hrows⟩ := weightedRows_ok (by
          rw [← hsmWeights_respons]; exact hw 0) hlen c2
        refine ⟨Js', hJs', fun j => ?_⟩
        rw [← hs j]
        obtain ⟨d1, d2, d3, d4⟩ := vstack_ok c7
        have hnl : (v.e ++ [nl]).getLastD 0 = nl := by simp
        rw [hnl] at c6
        unfold divRow at c6
        split at c6
        · cases c6
        · rename_i hnz
          cases c6
          unfold rowMul at c5
          simp only at c5
          split at c5
          · rename_i hsh
            cases c5
            rw [rowTimes_append]
            simp only [List.length_singleton, Finset.sum_range_one, List.getD_cons_zero, Nat.add_zero]
            rw [d4, if_neg (by rw [hsh.1]; omega)]
            have e1 : rowTimes v.e R j = rowTimes v.e Jk j := by
              apply rowTimes_congr
              intro i hi
              rw [d4, if_pos (by rw [hsh.1]; exact hi)]
            rw [e1]
            show rowTimes v.e Jk j + nl * ((s j - rowTimes v.e Jk j) / nl) = s j
            field_simp
            ring
          · cases c5
  | sum =>
    replace he : mixSum al vals = .ok e := he
    unfold mixSum at he
    obtain ⟨k, a1, he⟩ := bind_ok he
    obtain ⟨v, a2, he⟩ := bind_ok he
    obtain ⟨t, a3, he⟩ := bind_ok he
    obtain ⟨s', a4, he⟩ := bind_ok he
    cases he
    simp only at h
    obtain ⟨k', b1, h⟩ := bind_ok h
    obtain ⟨ek, b2, h⟩ := bind_ok h
    have hvk := pyGet_iff.1 a2
    have hene : es ≠ [] := by rw [hes]; simpa using ne_of_get hvk
    have hane : al ≠ [] := by
      rintro rfl
      exact ne_of_get hvk (List.length_eq_zero_iff.1 hl.symm)
    unfold drho at h
    rw [hsmWeights_shift _ hpos hane hene, hsmWeights_respons] at h
    unfold jacSum at h
    obtain ⟨J0, c1, h⟩ := bind_ok h
    cases J0 with
    | none => cases h
    | some J0 =>
      simp only at h
      obtain ⟨s, c2, h⟩ := bind_ok h
      obtain ⟨r, c6, h⟩ := bind_ok h
      cases h
      obtain ⟨Js', hJs', hs, hcols, hrows⟩ := weightedRows_ok (by
        rw [← hsmWeights_respons]; exact hw 0) hlen c2
      refine ⟨Js', hJs', fun j => ?_⟩
      rw [← hs j]
      unfold divRow at c6
      split at c6
      · cases c6
      · rename_i hnz
        cases c6
        have hlast : [Real.sqrt 2 * s'].getLastD 0 = Real.sqrt 2 * s' := rfl
        rw [hlast] at hnz
        simp only [rowTimes, List.length_singleton, Finset.sum_range_one, List.getD_cons_zero, DMat.row]
        rw [hlast]
        exact mul_div_cancel₀ _ hnz
  | hsm =>
    replace he : mixHsm al vals = .ok e := he
    unfold mixHsm at he
    simp only [← hes] at he
    obtain ⟨k, a1, he⟩ := bind_ok he
    obtain ⟨ek, a2, he⟩ := bind_ok he
    obtain ⟨t, a3, he⟩ := bind_ok he
    split at he
    · cases he
    obtain ⟨d, a4, he⟩ := bind_ok he
    cases he
    simp only at h
    obtain ⟨k', b1, h⟩ := bind_ok h
    obtain ⟨ek', b2, h⟩ := bind_ok h
    have hvk := pyGet_iff.1 a2
    have hene : es ≠ [] := ne_of_get hvk
    have hane : al ≠ [] := by
      rintro rfl
      have : vals = [] := List.length_eq_zero_iff.1 hl.symm
      exact hene (by rw [hes, this]; rfl)
    unfold drho at h
    rw [hsmWeights_shift _ hpos hane hene, hsmWeights_respons] at h
    unfold jacHsm at h
    obtain ⟨J0, c1, h⟩ := bind_ok h
    cases J0 with
    | none => cases h
    | some J0 =>
      simp only at h
      obtain ⟨s, c2, h⟩ := bind_ok h
      cases h
      rw [hsmWeights_shift _ hpos hane hene, hsmWeights_respons]
      refine stackJacs_ok d (by rw [← hsmWeights_respons]; exact hw 0) hlen ?_ ?_ c2
      · intro p hp
        rw [← hsmWeights_respons] at hp
        unfold hsmWeights at hp
        rw [zipWith_zip] at hp
        obtain ⟨q, hq, rfl⟩ := List.mem_map.1 hp
        exact (div_pos (mul_pos (hpos _ (mem_zip_left hq)) (Real.exp_pos _)) (sumExp_pos 0 hpos hane hene)).le
      · rw [hes, List.forall₂_map_left_iff]
        exact hJl

/-! ### The derivative of the negative log-likelihood -/

/-- The constant by which the cost of a mixture exceeds its negative log-likelihood. -/
noncomputable def mixConst (al : List ℝ) : MixKind → ℝ
  | .max => 0
  | .maxSum d => Real.log (al.length * listMax al + d)
  | .sum => al.sum
  | .hsm => hsmConst al

theorem mix_cost (kind : MixKind) (hk : kind.smooth) (al : List ℝ) (vals : List CompVal) (e : List ℝ)
    (hl : al.length = vals.length) (he : mixErrors kind al vals = .ok e) :
    halfSq e = mixConst al kind - Real.log (sumExp 0 al (vals.map CompVal.e)) := by
  unfold mixErrors at he
  obtain ⟨u, hg, he⟩ := bind_ok he
  have hpos := guardAlphas_ok hg
  cases kind with
  | max => exact hk.elim
  | maxSum d =>
    replace he : mixMaxSum d al vals = .ok e := he
    unfold mixMaxSum at he
    obtain ⟨k, h1, he⟩ := bind_ok he
    obtain ⟨v, h2, he⟩ := bind_ok he
    split at he
    · cases he
    obtain ⟨nl, h3, he⟩ := bind_ok he
    cases he
    unfold maxSumNonlinear at h3
    obtain ⟨c, h4, h3⟩ := bind_ok h3
    obtain ⟨t, h5, h3⟩ := bind_ok h3
    obtain ⟨s, h6, h3⟩ := bind_ok h3
    cases h3
    obtain ⟨-, rfl⟩ := npLog_ok h4
    obtain ⟨-, rfl⟩ := npLog_ok h5
    obtain ⟨hnn, rfl⟩ := npSqrt_ok h6
    have hvne := ne_of_get (pyGet_iff.1 h2)
    have hane : al ≠ [] := by
      rintro rfl
      exact hvne (List.length_eq_zero_iff.1 hl.symm)
    rw [halfSq_append, halfSq_sqrt hnn, log_sumExp _ hpos hane (by simpa using hvne)]
    simp only [mixConst]
    ring
  | sum =>
    replace he : mixSum al vals = .ok e := he
    unfold mixSum at he
    obtain ⟨k, h1, he⟩ := bind_ok he
    obtain ⟨v, h2, he⟩ := bind_ok he
    obtain ⟨t, h5, he⟩ := bind_ok he
    obtain ⟨s, h6, he⟩ := bind_ok he
    cases he
    obtain ⟨-, rfl⟩ := npLog_ok h5
    obtain ⟨hnn, rfl⟩ := npSqrt_ok h6
    have hvne := ne_of_get (pyGet_iff.1 h2)
    have hane : al ≠ [] := by
      rintro rfl
      exact hvne (List.length_eq_zero_iff.1 hl.symm)
    rw [halfSq_sqrt hnn, log_sumExp _ hpos hane (by simpa using hvne)]
    simp only [mixConst]
    ring
  | hsm =>
    replace he : mixHsm al vals = .ok e := he
    unfold mixHsm at he
    obtain ⟨k, h1, he⟩ := bind_ok he
    obtain ⟨v, h2, he⟩ := bind_ok he
    obtain ⟨t, h5, he⟩ := bind_ok he
    split at he
    · cases he
    obtain ⟨d, h6, he⟩ := bind_ok he
    cases he
    obtain ⟨-, rfl⟩ := npLog_ok h5
    obtain ⟨hnn, rfl⟩ := npSqrt_ok h6
    have hene := ne_of_get (pyGet_iff.1 h2)
    have hane : al ≠ [] := by
      rintro rfl
      have : vals = [] := List.length_eq_zero_iff.1 hl.symm
      exact hene (by rw [this]; rfl)
    rw [halfSq_append, halfSq_sqrt1 hnn, log_sumExp _ hpos hane hene]
    simp only [mixConst, halfSq]
    ring

/-- The value at `t` of a list of functions. -/
def evalAt (t : ℝ) (fs : List (ℝ → ℝ)) : List ℝ := fs.map fun f => f t

/-- `Σ_i e_i d_i` -/
def dotL (e d : List ℝ) : ℝ := (List.zipWith (fun x y => x * y) e d).sum

theorem halfSq_deriv {fs : List (ℝ → ℝ)} {ds : List ℝ} {t : ℝ}
    (h : List.Forall₂ (fun f d => HasDerivAt f d t) fs ds) :
    HasDerivAt (fun s => halfSq (evalAt s fs)) (dotL (evalAt t fs) ds) t := by
  induction h with
  | nil =>
    have : (fun s : ℝ => halfSq (evalAt s [])) = fun _ => 0 := by funext s; simp [halfSq, evalAt]
    rw [this]
    exact (hasDerivAt_const t (0 : ℝ)).congr_deriv (by simp [dotL])
  | @cons f d fs ds h1 h2 ih =>
    have : (fun s : ℝ => halfSq (evalAt s (f :: fs))) = fun s => 1 / 2 * (f s * f s) + halfSq (evalAt s fs) := by
      funext s; simp [halfSq, evalAt, mul_add]
    rw [this]
    exact (((h1.mul h1).const_mul (1 / 2)).add ih).congr_deriv (by simp [dotL, evalAt]; ring)

/-- `Σ_k a_k exp(-f_k) g_k` -/
noncomputable def expSum : List ℝ → List (List ℝ) → List (List ℝ) → ℝ
  | a :: al, e :: es, d :: ds => a * Real.exp (-halfSq e) * dotL e d + expSum al es ds
  | _, _, _ => 0

theorem sumExp_deriv {al : List ℝ} {fss : List (List (ℝ → ℝ))} {dss : List (List ℝ)} {t : ℝ}
    (h : List.Forall₂ (List.Forall₂ fun f d => HasDerivAt f d t) fss dss) (hl : al.length = fss.length) :
    HasDerivAt (fun s => sumExp 0 al (fss.map (evalAt s))) (-expSum al (fss.map (evalAt t)) dss) t := by
  induction h generalizing al with
  | nil =>
    have : al = [] := List.length_eq_zero_iff.1 hl
    subst this
    have : (fun s : ℝ => sumExp 0 [] (([] : List (List (ℝ → ℝ))).map (evalAt s))) = fun _ => 0 := by
      funext s; simp [sumExp]
    rw [this]
    exact (hasDerivAt_const t (0 : ℝ)).congr_deriv (by simp [expSum])
  | @cons fs ds fss dss h1 h2 ih =>
    cases al with
    | nil => simp at hl
    | cons a al =>
      have ih := ih (al := al) (by simpa using hl)
      have : (fun s : ℝ => sumExp 0 (a :: al) ((fs :: fss).map (evalAt s))) =
          fun s => a * Real.exp (-halfSq (evalAt s fs)) + sumExp 0 al (fss.map (evalAt s)) := by
        funext s; simp [sumExp]
      rw [this]
      have h3 := ((halfSq_deriv h1).neg.exp.const_mul a).add ih
      exact h3.congr_deriv (by simp [expSum]; ring)

/-- `J δ` for the first `n` columns. -/
def jacTimes (n : ℕ) (m : ℕ) (J : DMat) (δ : ℕ → ℝ) : List ℝ :=
  (List.range m).map fun i => ∑ j ∈ Finset.range n, J.get i j * δ j

theorem dotL_range (e : List ℝ) (g : ℕ → ℝ) :
    dotL e ((List.range e.length).map g) = ∑ i ∈ Finset.range e.length, e.getD i 0 * g i := by
  induction e generalizing g with
  | nil => simp [dotL]
  | cons x e ih =>
    simp only [List.length_cons]
    rw [List.range_succ_eq_map, List.map_cons, List.map_map, Finset.sum_range_succ']
    have := ih (g ∘ Nat.succ)
    unfold dotL at this ⊢
    simp only [List.zipWith_cons_cons, List.sum_cons, this, List.getD_cons_succ, List.getD_cons_zero, Function.comp]
    rw [add_comm]

theorem dotL_jacTimes (n : ℕ) (e : List ℝ) (J : DMat) (δ : ℕ → ℝ) :
    dotL e (jacTimes n e.length J δ) = ∑ j ∈ Finset.range n, rowTimes e J j * δ j := by
  unfold jacTimes
  rw [dotL_range]
  unfold rowTimes
  simp only [Finset.mul_sum, Finset.sum_mul]
  rw [Finset.sum_comm]
  apply Finset.sum_congr rfl
  intro j _
  apply Finset.sum_congr rfl
  intro i _
  ring

theorem gradSum_expSum (n : ℕ) (δ : ℕ → ℝ) (Z : ℝ) : ∀ (al : List ℝ) (es : List (List ℝ)) (Js : List DMat),
    ∑ j ∈ Finset.range n, gradSum (List.zipWith (fun a e => a * Real.exp (-halfSq e) / Z) al es) es Js j * δ j =
      expSum al es (List.zipWith (fun e J => jacTimes n e.length J δ) es Js) / Z
  | [], es, Js => by simp [gradSum, expSum]
  | _ :: _, [], _ => by simp [gradSum, expSum]
  | _ :: _, _ :: _, [] => by simp [gradSum, expSum]
  | a :: al, e :: es, J :: Js => by
    have ih := gradSum_expSum n δ Z al es Js
    simp only [List.zipWith_cons_cons, gradSum, expSum, add_mul, Finset.sum_add_distrib, ih, add_div]
    congr 1
    rw [dotL_jacTimes]
    simp only [rowTimes, Finset.mul_sum, Finset.sum_mul, Finset.sum_div]
    apply Finset.sum_congr rfl
    intro j _
    apply Finset.sum_congr rfl
    intro i _
    ring

/-- **C70 (derivative).** Let the component errors depend on a parameter `s` (`fss`), with derivatives `J_k δ` at
`t`: for instance, the components evaluated along a motion of one state in direction `δ`. Then the cost `½‖e‖²` of the
mixture (Sum, Max-Sum or Hessian-Sum) is differentiable and its derivative is `(eᵀ R) δ`, with `e` and `R` the error and
Jacobian that the mixture returns: the solver's gradient is the gradient of the cost. -/
theorem C70_gradient_is_derivative (kind : MixKind) (hk : kind.smooth) (al : List ℝ) (fss : List (List (ℝ → ℝ)))
    (vals : ℝ → List CompVal) (hvals : ∀ s, (vals s).map CompVal.e = fss.map (evalAt s)) (t : ℝ)
    (hl : al.length = fss.length) (e : ℝ → List ℝ) (he : ∀ s, mixErrors kind al (vals s) = .ok (e s))
    (jss : List (List (Option DMat))) (i : ℕ) (Js : List DMat) (hcol : jacColumn jss i = .ok (Js.map some))
    (hrows : List.Forall₂ (fun (fs : List (ℝ → ℝ)) (J : DMat) => J.rows = fs.length) fss Js) (R : DMat)
    (hR : mixJacobian kind al ((vals t).map CompVal.e) (e t) jss i = .ok (some R)) (δ : ℕ → ℝ)
    (hd : List.Forall₂ (List.Forall₂ fun f d => HasDerivAt f d t) fss
      (List.zipWith (fun fs J => jacTimes R.cols fs.length J δ) fss Js)) :
    HasDerivAt (fun s => halfSq (e s)) (∑ j ∈ Finset.range R.cols, rowTimes (e t) R j * δ j) t := by
  have hlv : ∀ s, al.length = (vals s).length := by
    intro s
    have := congrArg List.length (hvals s)
    simp only [List.length_map] at this
    omega
  have hsh : List.Forall₂ (fun (v : CompVal) (J : Option DMat) => ∀ J', J = some J' → J'.rows = v.e.length) (vals t)
      (Js.map some) := by
    rw [List.forall₂_map_right_iff]
    have h1 : List.Forall₂ (fun (e : List ℝ) (J : DMat) => J.rows = e.length) ((vals t).map CompVal.e) Js := by
      rw [hvals t, List.forall₂_map_left_iff]
      exact hrows.imp fun fs J h => by simpa [evalAt] using h
    rw [List.forall₂_map_left_iff] at h1
    refine h1.imp ?_
    rintro v J h J' hJ'
    cases hJ'
    exact h
  obtain ⟨Js', hJs', hg⟩ := mix_gradient kind hk al (vals t) (e t) jss i _ R (hlv t) hsh (he t) hcol hR
  have : Js = Js' := List.map_injective_iff.2 (Option.some_injective _) hJs'
  subst this
  have hcost : (fun s => halfSq (e s)) = fun s => mixConst al kind - Real.log (sumExp 0 al (fss.map (evalAt s))) := by
    funext s
    rw [mix_cost kind hk al (vals s) (e s) (hlv s) (he s), hvals s]
  have hpos : ∀ a ∈ al, 0 < a := by
    have := he t
    unfold mixErrors at this
    obtain ⟨u, hg, -⟩ := bind_ok this
    exact guardAlphas_ok hg
  have hZ : 0 < sumExp 0 al (fss.map (evalAt t)) := by
    by_cases hne : al = []
    · exfalso
      subst hne
      have h0 : vals t = [] := List.length_eq_zero_iff.1 (hlv t).symm
      have := he t
      rw [h0] at this
      cases kind with
      | max => exact hk
      | _ => cases this
    · refine sumExp_pos 0 hpos hne ?_
      intro h0
      have : fss = [] := by simpa using h0
      rw [this] at hl
      exact hne (List.length_eq_zero_iff.1 hl)
  rw [hcost]
  have h1 := ((sumExp_deriv hd hl).log hZ.ne').const_sub (mixConst al kind)
  refine h1.congr_deriv ?_
  rw [Finset.sum_congr rfl fun j _ => by rw [hg j]]
  rw [hvals t]
  unfold respons
  rw [gradSum_expSum]
  have e2 : ((al.zip (fss.map (evalAt t))).map fun p => p.1 * Real.exp (-halfSq p.2)).sum =
      sumExp 0 al (fss.map (evalAt t)) := by
    rw [sumExp_zip]; simp only [zero_sub]
  rw [e2]
  have e3 : (List.zipWith (fun e J => jacTimes R.cols e.length J δ) (fss.map (evalAt t)) Js) =
      List.zipWith (fun fs J => jacTimes R.cols fs.length J δ) fss Js := by
    rw [List.zipWith_map_left]
    simp [evalAt]
  rw [e3]
  ring

/-! ### The same, for the `evaluate` method -/

/-- Specification: `J` is the Jacobian of component `c` with respect to state number `i` of the mixture: the one
the component returns if it depends on that state, zero otherwise. -/
def IsCompJac (M : MixRes K S) (dof : S → ℕ) (xs : List S) (flags : List Bool) (i : ℕ) (c : MixComp K S)
    (J : DMat) : Prop :=
  ∃ k x ys fs e jl, M.keys[i]? = some k ∧ xs[i]? = some x ∧ lookupAll (M.keys.zip xs) c.res.keys = .ok ys ∧
    lookupAll (M.keys.zip flags) c.res.keys = .ok fs ∧ c.res.error ys = .ok e ∧ c.res.jacobians ys fs = .ok jl ∧
    (k ∈ c.res.keys → (c.res.keys.zip jl).lookup k = some (some J)) ∧
    (k ∉ c.res.keys → J = DMat.zeros e.length (dof x))

theorem putJacs_length (keys : List K) : ∀ (ks : List K) (js l : List (Option DMat)),
    (putJacs keys ks js l).length = l.length
  | [], _, _ => by simp [putJacs]
  | _ :: _, [], _ => by simp [putJacs]
  | k :: ks, J :: js, l => by
    unfold putJacs
    rw [putJacs_length keys ks js]
    simp

theorem putJacs_get {keys : List K} (hn : keys.Nodup) {i : ℕ} {k : K} (hi : keys[i]? = some k) :
    ∀ (ks : List K) (js l : List (Option DMat)), ks.Nodup → (∀ k ∈ ks, k ∈ keys) → ks.length = js.length →
    i < l.length →
    (k ∈ ks → ∃ J, (ks.zip js).lookup k = some J ∧ (putJacs keys ks js l)[i]? = some J) ∧
    (k ∉ ks → (putJacs keys ks js l)[i]? = l[i]?)
  | [], js, l, _, _, _, _ => by simp [putJacs]
  | a :: ks, [], l, _, _, h, _ => by simp at h
  | a :: ks, J :: js, l, h1, h2, h3, h4 => by
    obtain ⟨hik, hik'⟩ := List.getElem?_eq_some_iff.1 hi
    obtain ⟨h1a, h1b⟩ := List.nodup_cons.1 h1
    have ih := putJacs_get hn hi ks js (l.set (keys.idxOf a) J) h1b (fun k hk => h2 k (by simp [hk]))
      (by simpa using h3) (by simpa using h4)
    have hidx : a = k → keys.idxOf a = i := by
      rintro rfl
      rw [← hik']; exact hn.idxOf_getElem i hik
    constructor
    · intro hk
      unfold putJacs
      by_cases hak : a = k
      · refine ⟨J, ?_, ?_⟩
        · subst hak; simp [List.lookup_cons]
        · rw [ih.2 (by rw [← hak]; exact h1a), hidx hak]
          simp [h4]
      · have hk' : k ∈ ks := by
          rcases List.mem_cons.1 hk with h | h
          · exact absurd h.symm hak
          · exact h
        obtain ⟨J', h5, h6⟩ := ih.1 hk'
        refine ⟨J', ?_, h6⟩
        have hb : (k == a) = false := by simpa using fun h => hak h.symm
        simp only [List.zip_cons_cons, List.lookup_cons, hb]
        exact h5
    · intro hk
      have hak : a ≠ k := fun h => hk (by simp [h])
      have hk' : k ∉ ks := fun h => hk (by simp [h])
      unfold putJacs
      rw [ih.2 hk', List.getElem?_set_ne]
      intro h
      have ham : a ∈ keys := h2 a (by simp)
      have := List.getElem_idxOf (List.idxOf_lt_length_iff.2 ham)
      have h7 : keys[i]? = some a := by
        rw [← h, List.getElem?_eq_getElem (List.idxOf_lt_length_iff.2 ham), this]
      rw [hi] at h7
      exact hak (Option.some.inj h7).symm

theorem zeroJacs_length (dof : S → ℕ) (m : ℕ) : ∀ (fs : List Bool) (xs : List S),
    (zeroJacs dof m fs xs).length = xs.length
  | [], xs => by unfold zeroJacs; cases xs <;> simp
  | _ :: _, [] => by simp [zeroJacs]
  | b :: bs, x :: xs => by simp [zeroJacs, zeroJacs_length dof m bs xs]

theorem zeroJacs_get (dof : S → ℕ) (m : ℕ) : ∀ (fs : List Bool) (xs : List S) (i : ℕ) (J : DMat),
    (zeroJacs dof m fs xs)[i]? = some (some J) → ∃ x, xs[i]? = some x ∧ J = DMat.zeros m (dof x)
  | [], xs, i, J, h => by
    exfalso
    unfold zeroJacs at h
    cases xs with
    | nil => simp at h
    | cons x xs => rw [List.getElem?_map] at h; cases hx : (x :: xs)[i]? <;> rw [hx] at h <;> simp at h
  | _ :: _, [], i, J, h => by simp [zeroJacs] at h
  | b :: bs, x :: xs, i, J, h => by
    unfold zeroJacs at h
    cases i with
    | zero =>
      simp only [List.getElem?_cons_zero, Option.some.injEq] at h
      split at h
      · cases h; exact ⟨x, rfl, rfl⟩
      · cases h
    | succ i =>
      simp only [List.getElem?_cons_succ] at h ⊢
      exact zeroJacs_get dof m bs xs i J h

theorem compJacs_spec {dof : S → ℕ} {keys : List K} {xs : List S} {flags : List Bool} :
    ∀ {cs : List (MixComp K S)} {jss : List (List (Option DMat))}, (∀ c ∈ cs, ∀ k ∈ c.res.keys, k ∈ keys) →
    compJacs dof keys xs flags cs = .ok jss →
    List.Forall₂ (fun c js => ∃ ys fs e jl, lookupAll (keys.zip xs) c.res.keys = .ok ys ∧
      lookupAll (keys.zip flags) c.res.keys = .ok fs ∧ c.res.error ys = .ok e ∧ c.res.jacobians ys fs = .ok jl ∧
      js = putJacs keys c.res.keys jl (zeroJacs dof e.length flags xs)) cs jss
  | [], jss, _, h => by unfold compJacs at h; cases h; exact .nil
  | c :: cs, jss, hk, h => by
    unfold compJacs at h
    obtain ⟨ys, h1, h⟩ := bind_ok h
    obtain ⟨fs, h2, h⟩ := bind_ok h
    obtain ⟨e, h3, h⟩ := bind_ok h
    obtain ⟨jl, h4, h⟩ := bind_ok h
    obtain ⟨r, h5, h⟩ := bind_ok h
    cases h
    exact .cons ⟨ys, fs, e, jl, pickAll_lookup (hk c (by simp)) h1, pickAll_lookup (hk c (by simp)) h2, h3, h4, rfl⟩
      (compJacs_spec (fun c' hc' => hk c' (by simp [hc'])) h5)

/-- A component's Jacobians have consistent shapes: one per key, with as many rows as the error. -/
def MixComp.Shapes (c : MixComp K S) : Prop :=
  c.res.keys.Nodup ∧ ∀ ys fs e jl, c.res.error ys = .ok e → c.res.jacobians ys fs = .ok jl →
    jl.length = c.res.keys.length ∧ ∀ J : DMat, some J ∈ jl → J.rows = e.length

theorem mapM_get {α β : Type} {g : α → Except Err β} : ∀ {l : List α} {r : List β}, l.mapM g = .ok r →
    r.length = l.length ∧ ∀ (i : ℕ) (b : β), r[i]? = some b → ∃ a, l[i]? = some a ∧ g a = .ok b
  | [], r, h => by rw [List.mapM_nil] at h; cases h; simp
  | a :: l, r, h => by
    rw [List.mapM_cons] at h
    obtain ⟨b, h1, h⟩ := bind_ok h
    obtain ⟨r', h2, h⟩ := bind_ok h
    cases h
    obtain ⟨h3, h4⟩ := mapM_get h2
    refine ⟨by simp [h3], ?_⟩
    intro i b' hb
    cases i with
    | zero => simp only [List.getElem?_cons_zero, Option.some.injEq] at hb ⊢; subst hb; exact ⟨a, rfl, h1⟩
    | succ i => simp only [List.getElem?_cons_succ] at hb ⊢; exact h4 i b' hb

theorem lookup_mem_zip {α : Type} : ∀ {ks : List K} {js : List α} {k : K} {J : α},
    (ks.zip js).lookup k = some J → J ∈ js
  | [], _, _, _, h => by simp at h
  | _ :: _, [], _, _, h => by simp at h
  | a :: ks, b :: js, k, J, h => by
    simp only [List.zip_cons_cons, List.lookup_cons] at h
    split at h
    · cases h; simp
    · exact List.mem_cons_of_mem _ (lookup_mem_zip h)

/-- **C70.** `evaluate` of a Sum-, Max-Sum- or Hessian-Sum-Mixture with Jacobians requested returns one entry per
state. For every Jacobian `R` it returns, `eᵀ R = Σ_k p_k e_kᵀ J_k`, where `e_k` and `J_k` are the error and the
Jacobian of component `k` with respect to that state and `p_k ∝ w_k det(L_k) exp(-½‖e_k‖²)` its posterior
probability. -/
theorem C70_evaluate (M : MixRes K S) (hM : M.WF) (hn : M.keys.Nodup) (dof : S → ℕ) (kind : MixKind)
    (hk : kind.smooth) (hsh : ∀ c ∈ M.comps, c.Shapes) (xs : List S) (hx : xs.length = M.keys.length)
    (flags : List Bool) (js : List (Option DMat)) (h : M.jacobians dof kind xs flags = .ok js) :
    js.length = xs.length ∧ ∃ e vals, M.error kind xs = .ok e ∧ CompSpec M xs vals ∧
      ∀ (i : ℕ) (R : DMat), js[i]? = some (some R) → ∃ Js : List DMat,
        List.Forall₂ (IsCompJac M dof xs flags i) M.comps Js ∧
        ∀ j, (∑ r ∈ Finset.range e.length, e.getD r 0 * R.get r j) =
          gradSum (respons (alphasOf M.weights vals) (vals.map CompVal.e)) (vals.map CompVal.e) Js j := by
  unfold MixRes.jacobians at h
  obtain ⟨vals, h1, h⟩ := bind_ok h
  obtain ⟨jss, h2, h⟩ := bind_ok h
  obtain ⟨e, h3, h⟩ := bind_ok h
  obtain ⟨h4, h5⟩ := mapM_get h
  have hs := compValues_spec hM.keys h1
  have hj := compJacs_spec hM.keys h2
  refine ⟨by simpa using h4, e, vals, ?_, hs, ?_⟩
  · unfold MixRes.error; rw [h1, ok_bindE]; exact h3
  intro i R hi
  obtain ⟨i', h6, h7⟩ := h5 i (some R) hi
  obtain ⟨hil, hieq⟩ := List.getElem?_eq_some_iff.1 h6
  rw [List.getElem_range] at hieq
  subst hieq
  rw [List.length_range] at hil
  have hl : (alphasOf M.weights vals).length = vals.length :=
    alphasOf_length (by rw [hM.weights]; exact hs.length_eq)
  have h8 := h7
  unfold mixJacobian at h8
  obtain ⟨Js, h9, -⟩ := bind_ok h8
  have hcol := jacColumn_length h9
  have hkey : M.keys[i]? = some (M.keys[i]'(by omega)) := by simp
  -- each entry of the column
  have key : ∀ (cs : List (MixComp K S)) (vs : List CompVal) (jss : List (List (Option DMat)))
      (Js : List (Option DMat)), (∀ c ∈ cs, c.Shapes ∧ ∀ k ∈ c.res.keys, k ∈ M.keys) →
      List.Forall₂ (fun c v => ∃ ys, lookupAll (M.keys.zip xs) c.res.keys = .ok ys ∧ c.res.error ys = .ok v.e ∧
        c.sqrtInfo ys = .ok v.L ∧ v.column = c.column) cs vs →
      List.Forall₂ (fun c js => ∃ ys fs e jl, lookupAll (M.keys.zip xs) c.res.keys = .ok ys ∧
        lookupAll (M.keys.zip flags) c.res.keys = .ok fs ∧ c.res.error ys = .ok e ∧ c.res.jacobians ys fs = .ok jl ∧
        js = putJacs M.keys c.res.keys jl (zeroJacs dof e.length flags xs)) cs jss →
      List.Forall₂ (fun js J => js[i]? = some J) jss Js →
      List.Forall₂ (fun c J => ∀ J', J = some J' → IsCompJac M dof xs flags i c J') cs Js ∧
      List.Forall₂ (fun (v : CompVal) (J : Option DMat) => ∀ J', J = some J' → J'.rows = v.e.length) vs Js := by
    intro cs
    induction cs with
    | nil =>
      intro vs jss Js _ ha hb hc
      cases ha; cases hb; cases hc
      exact ⟨.nil, .nil⟩
    | cons c cs ih =>
      intro vs jss Js hcs ha hb hc
      cases ha with
      | cons ha ha' =>
        cases hb with
        | cons hb hb' =>
          cases hc with
          | cons hc hc' =>
            rename_i v vs' js' jss' J Js'
            obtain ⟨i1, i2⟩ := ih vs' jss' Js' (fun c hc => hcs c (by simp [hc])) ha' hb' hc'
            obtain ⟨ys, a1, a2, a3, a4⟩ := ha
            obtain ⟨ys', fs, e', jl, b1, b2, b3, b4, rfl⟩ := hb
            have : ys' = ys := by rw [a1] at b1; exact (Except.ok.inj b1).symm
            subst this
            have : e' = v.e := by rw [a2] at b3; exact (Except.ok.inj b3).symm
            subst this
            obtain ⟨⟨s1, s2⟩, s3⟩ := hcs c (by simp)
            obtain ⟨s4, s5⟩ := s2 ys' fs _ jl b3 b4
            have hil' : i < (zeroJacs dof v.e.length flags xs).length := by rw [zeroJacs_length]; exact hil
            obtain ⟨p1, p2⟩ := putJacs_get hn hkey c.res.keys jl (zeroJacs dof v.e.length flags xs) s1 s3 s4.symm hil'
            have hxi : xs[i]? = some xs[i] := by simp
            refine ⟨.cons ?_ i1, .cons ?_ i2⟩
            · rintro J' rfl
              refine ⟨_, _, ys', fs, v.e, jl, hkey, hxi, a1, b2, b3, b4, ?_, ?_⟩
              · intro hkm
                obtain ⟨J'', q1, q2⟩ := p1 hkm
                rw [hc] at q2
                rw [q1, ← Option.some.inj q2]
              · intro hkm
                have := p2 hkm
                rw [hc] at this
                obtain ⟨x, q1, q2⟩ := zeroJacs_get dof _ flags xs i J' this.symm
                rw [hxi] at q1
                cases q1
                exact q2
            · rintro J' rfl
              by_cases hkm : M.keys[i]'(by omega) ∈ c.res.keys
              · obtain ⟨J'', q1, q2⟩ := p1 hkm
                rw [hc] at q2
                have : J'' = some J' := (Option.some.inj q2).symm
                subst this
                exact s5 J' (lookup_mem_zip q1)
              · have := p2 hkm
                rw [hc] at this
                obtain ⟨x, q1, q2⟩ := zeroJacs_get dof _ flags xs i J' this.symm
                rw [q2]; rfl
  obtain ⟨k1, k2⟩ := key M.comps vals jss Js (fun c hc => ⟨hsh c hc, hM.keys c hc⟩) hs hj hcol
  obtain ⟨Js', rfl, hg⟩ := mix_gradient kind hk _ vals e jss i Js R hl k2 h3 h9 h7
  refine ⟨Js', ?_, hg⟩
  rw [List.forall₂_map_right_iff] at k1
  exact k1.imp fun c J hJ => hJ J rfl

/-- The hypotheses of `C70_evaluate` are met. -/
example (x : ℝ) : exMix.keys.Nodup ∧ (∀ c ∈ exMix.comps, c.Shapes) ∧ [x].length = exMix.keys.length ∧
    ∃ js, exMix.jacobians (fun _ => 1) .hsm [x] [true] = .ok js := by
  refine ⟨by simp [exMix], ?_, rfl, ?_⟩
  · have : ∀ c d, (exComp c d).Shapes := by
      intro c d
      refine ⟨by simp [exComp], ?_⟩
      intro ys fs e jl h1 h2
      cases h1
      cases h2
      simp [exComp]
    intro c hc
    simp only [exMix, List.mem_cons, List.not_mem_nil, or_false] at hc
    rcases hc with rfl | rfl <;> exact this _ _
  · obtain ⟨e, he⟩ := C45_hsm_total _ exMix_wf _ _ (exMix_ok x) (by norm_num)
    unfold MixRes.error at he
    rw [(exMix_ok x).ok, ok_bindE] at he
    unfold MixRes.jacobians
    rw [(exMix_ok x).ok, ok_bindE]
    have hj : compJacs (fun _ => 1) exMix.keys [x] [true] exMix.comps =
        .ok [[some ⟨2, 1, fun i _ => if i = 0 then 1 else 0⟩], [some ⟨2, 1, fun i _ => if i = 0 then 1 else 0⟩]] := by
      simp [exMix, exComp, compJacs, pickAll, pyGet, bind, Except.bind, pure, Except.pure, putJacs, zeroJacs]
    rw [hj, ok_bindE, he, ok_bindE]
    simp only [List.length_singleton]
    have hr : List.range 1 = [0] := rfl
    rw [hr, List.mapM_cons, List.mapM_nil]
    unfold mixJacobian
    have hc : jacColumn [[some (⟨2, 1, fun i _ => if i = 0 then 1 else 0⟩ : DMat)],
        [some ⟨2, 1, fun i _ => if i = 0 then 1 else 0⟩]] 0 =
        .ok [some ⟨2, 1, fun i _ => if i = 0 then 1 else 0⟩, some ⟨2, 1, fun i _ => if i = 0 then 1 else 0⟩] := by
      simp [jacColumn, pyGet, bind, Except.bind, pure, Except.pure]
    rw [hc, ok_bindE]
    simp only [List.map_cons, List.map_nil]
    obtain ⟨k, hk⟩ := npArgmin_some (l := [halfSq [x - 0, 1], halfSq [x - 1, 2]]) (by simp)
    obtain ⟨hk2, -, -⟩ := npArgmin_spec hk
    rw [hk, ok_bindE]
    have : ∃ ek, pyGet [[x - 0, 1], [x - 1, 2]] k = .ok ek := by
      simp only [List.length_cons, List.length_nil] at hk2
      exact ⟨_, pyGet_ok (by simpa using hk2)⟩
    obtain ⟨ek, hek⟩ := this
    rw [hek, ok_bindE]
    unfold drho
    simp only [exMix, alphasOf, List.zipWith_cons_cons, List.zipWith_nil_left, hsmWeights]
    exact ⟨_, rfl⟩

end Verif
