import Verif.Lemmas.Mixture
import Verif.Props.Residuals

/-!
Property theorems about Gaussian mixture residuals (`navlie/batch/gaussian_mixtures.py`; C44, C45).
-/

namespace Verif

set_option linter.unusedVariables false
set_option linter.unusedSectionVars false

variable {K S : Type} [DecidableEq K]

theorem ok_bindE {α β : Type} (a : α) (g : α → Except Err β) : ((Except.ok a : Except Err α) >>= g) = g a := rfl

/-- Specification: `vals` are the errors and square root information matrices of the components, each evaluated on
the states that belong to its own keys. -/
def CompSpec (M : MixRes K S) (xs : List S) (vals : List CompVal) : Prop :=
  List.Forall₂ (fun c v => ∃ ys, lookupAll (M.keys.zip xs) c.res.keys = .ok ys ∧ c.res.error ys = .ok v.e ∧
    c.sqrtInfo ys = .ok v.L ∧ v.column = c.column) M.comps vals

/-- Well-formed mixture: one weight per component, and every component key is a key of the mixture. -/
structure MixRes.WF (M : MixRes K S) : Prop where
  keys : ∀ c ∈ M.comps, ∀ k ∈ c.res.keys, k ∈ M.keys
  weights : M.weights.length = M.comps.length

/-- Specification: the unnormalized negative log-likelihood of the mixture,
`-log Σ_k α_k exp(-½ ‖e_k‖²)` with `α_k = w_k det L_k`. -/
noncomputable def mixNll (ws : List ℝ) (vals : List CompVal) : ℝ :=
  -Real.log ((ws.zip vals).map fun p => p.1 * p.2.L.2.det * Real.exp (-(1 / 2 * (p.2.e.map fun x => x * x).sum))).sum

theorem mixNll_eq (ws : List ℝ) (vals : List CompVal) :
    mixNll ws vals = -Real.log (sumExp 0 (alphasOf ws vals) (vals.map CompVal.e)) := by
  unfold mixNll
  congr 2
  induction ws generalizing vals with
  | nil => simp [alphasOf, sumExp]
  | cons w ws ih =>
    cases vals with
    | nil => simp [alphasOf, sumExp]
    | cons v vals =>
      have := ih vals
      simp only [List.zip_cons_cons, List.map_cons, List.sum_cons] at this ⊢
      rw [this]
      simp [alphasOf, sumExp, halfSq]

/-- **C44, constructor.** The mixture's keys are exactly the keys of its components, each once; its weights are the
given ones divided by their sum, and add up to one. -/
theorem C44_ctor (cs : List (MixComp K S)) (ws : List ℝ) (M : MixRes K S) (h : MixRes.new cs ws = .ok M)
    (hl : ws.length = cs.length) :
    M.WF ∧ M.comps = cs ∧ M.keys.Nodup ∧ (∀ k, k ∈ M.keys ↔ ∃ c ∈ cs, k ∈ c.res.keys) ∧
    M.weights = ws.map (· / ws.sum) ∧ M.weights.sum = 1 := by
  unfold MixRes.new at h
  split at h
  · cases h
  · rename_i hs
    cases h
    obtain ⟨h1, h2⟩ := unionKeys_spec cs
    refine ⟨⟨fun c hc k hk => (h1 k).2 ⟨c, hc, hk⟩, by simpa using hl⟩, rfl, h2, h1, rfl, ?_⟩
    show (ws.map fun w => w / ws.sum).sum = 1
    have : (ws.map fun w => w / ws.sum) = ws.map fun w => w * (ws.sum)⁻¹ := by simp [div_eq_mul_inv]
    rw [this, List.sum_map_mul_right, List.map_id']
    exact mul_inv_cancel₀ hs

theorem compValues_spec {keys : List K} {xs : List S} : ∀ {cs : List (MixComp K S)} {vals : List CompVal},
    (∀ c ∈ cs, ∀ k ∈ c.res.keys, k ∈ keys) → compValues keys xs cs = .ok vals →
    List.Forall₂ (fun c v => ∃ ys, lookupAll (keys.zip xs) c.res.keys = .ok ys ∧ c.res.error ys = .ok v.e ∧
      c.sqrtInfo ys = .ok v.L ∧ v.column = c.column) cs vals
  | [], vals, _, h => by unfold compValues at h; cases h; exact .nil
  | c :: cs, vals, hk, h => by
    unfold compValues at h
    obtain ⟨ys, h1, h⟩ := bind_ok h
    obtain ⟨e, h2, h⟩ := bind_ok h
    obtain ⟨L, h3, h⟩ := bind_ok h
    obtain ⟨r, h4, h⟩ := bind_ok h
    cases h
    exact .cons ⟨ys, pickAll_lookup (hk c (by simp)) h1, h2, h3, rfl⟩
      (compValues_spec (fun c' hc' => hk c' (by simp [hc'])) h4)

theorem alphasOf_length {ws : List ℝ} {vals : List CompVal} (h : ws.length = vals.length) :
    (alphasOf ws vals).length = vals.length := by simp [alphasOf, h]

theorem getD_zipWith {α β : Type} (f : α → β → ℝ) (l : List α) (m : List β) (k : ℕ) (h1 : k < l.length)
    (h2 : k < m.length) : (List.zipWith f l m).getD k 0 = f l[k] m[k] := by
  have : k < (List.zipWith f l m).length := by simp [h1, h2]
  simp only [List.getD, List.getElem?_eq_getElem this, Option.getD_some, List.getElem_zipWith]

/-- The error of a mixture in terms of its components. -/
theorem error_split {M : MixRes K S} (hM : M.WF) {kind : MixKind} {xs : List S} {e : List ℝ}
    (h : M.error kind xs = .ok e) :
    ∃ vals, CompSpec M xs vals ∧ M.weights.length = vals.length ∧ (∀ a ∈ alphasOf M.weights vals, 0 < a) ∧
      mixErrors kind (alphasOf M.weights vals) vals = .ok e := by
  unfold MixRes.error at h
  obtain ⟨vals, h1, h⟩ := bind_ok h
  have hs := compValues_spec hM.keys h1
  refine ⟨vals, hs, by rw [hM.weights]; exact hs.length_eq, ?_, h⟩
  unfold mixErrors at h
  obtain ⟨u, h2, -⟩ := bind_ok h
  exact guardAlphas_ok h2

/-- The dominant component: smallest `-log α + ½‖e‖²`. -/
def Dominant (ws : List ℝ) (vals : List CompVal) (k : ℕ) : Prop :=
  ∃ w v, ws[k]? = some w ∧ vals[k]? = some v ∧ ∀ (j : ℕ) (w' : ℝ) (v' : CompVal), ws[j]? = some w' → vals[j]? = some v' →
    -Real.log (w * v.L.2.det) + halfSq v.e ≤ -Real.log (w' * v'.L.2.det) + halfSq v'.e

theorem resValues_dominant {ws : List ℝ} {vals : List CompVal} {k : ℕ} (hl : ws.length = vals.length)
    (h : npArgmin (resValues (alphasOf ws vals) (vals.map CompVal.e)) = .ok k) : k < vals.length ∧ Dominant ws vals k := by
  obtain ⟨h1, h2, -⟩ := npArgmin_spec h
  have hlen : (resValues (alphasOf ws vals) (vals.map CompVal.e)).length = vals.length := by
    simp [resValues, alphasOf, hl]
  rw [hlen] at h1 h2
  have hval : ∀ j (hj : j < vals.length), (resValues (alphasOf ws vals) (vals.map CompVal.e)).getD j 0 =
      -Real.log (ws[j]'(by omega) * vals[j].L.2.det) + halfSq vals[j].e := by
    intro j hj
    unfold resValues
    rw [getD_zipWith _ _ _ _ (by simp [alphasOf, hl, hj]) (by simpa using hj)]
    simp [alphasOf]
  refine ⟨h1, ws[k]'(by omega), vals[k], by simp, by simp, ?_⟩
  intro j w' v' hw hv
  obtain ⟨hj, rfl⟩ := List.getElem?_eq_some_iff.1 hv
  obtain ⟨hj', rfl⟩ := List.getElem?_eq_some_iff.1 hw
  have := h2 j hj
  rwa [hval k h1, hval j hj] at this

theorem pyGet_iff {α : Type} {l : List α} {k : ℕ} {a : α} : pyGet l k = .ok a ↔ l[k]? = some a := by
  constructor
  · exact pyGet_some
  · intro h
    unfold pyGet
    rw [h]

theorem alphasOf_get {ws : List ℝ} {vals : List CompVal} {k : ℕ} {w : ℝ} {v : CompVal} (hw : ws[k]? = some w)
    (hv : vals[k]? = some v) : (alphasOf ws vals)[k]? = some (w * v.L.2.det) := by
  unfold alphasOf
  rw [List.getElem?_zipWith, hw, hv]

/-- **C44.** Half the squared norm of a Max-Mixture error is the smallest component negative log-likelihood
`-log α_k + ½‖e_k‖²`, plus the constant `log max α`. -/
theorem C44_max (M : MixRes K S) (hM : M.WF) (xs : List S) (e : List ℝ) (h : M.error .max xs = .ok e) :
    ∃ vals k w v, CompSpec M xs vals ∧ Dominant M.weights vals k ∧ M.weights[k]? = some w ∧ vals[k]? = some v ∧
      ∃ amax, (∃ (j : ℕ) (w' : ℝ) (v' : CompVal), M.weights[j]? = some w' ∧ vals[j]? = some v' ∧ amax = w' * v'.L.2.det) ∧
        (∀ (j : ℕ) (w' : ℝ) (v' : CompVal), M.weights[j]? = some w' → vals[j]? = some v' → w' * v'.L.2.det ≤ amax) ∧
        halfSq e = (-Real.log (w * v.L.2.det) + halfSq v.e) + Real.log amax ∧
        ∃ s, e = v.e ++ [s] := by
  obtain ⟨vals, hs, hl, ha, h⟩ := error_split hM h
  unfold mixErrors at h
  obtain ⟨u, -, h⟩ := bind_ok h
  replace h : mixMax (alphasOf M.weights vals) vals = .ok e := h
  unfold mixMax at h
  split at h
  · cases h
  obtain ⟨k, h1, h⟩ := bind_ok h
  obtain ⟨v, h2, h⟩ := bind_ok h
  obtain ⟨a, h3, h⟩ := bind_ok h
  obtain ⟨l, h4, h⟩ := bind_ok h
  obtain ⟨s, h5, h⟩ := bind_ok h
  cases h
  obtain ⟨hk, hdom⟩ := resValues_dominant hl h1
  have hv := pyGet_iff.1 h2
  have hw : M.weights[k]? = some (M.weights[k]'(by omega)) := by simp
  have hane : alphasOf M.weights vals ≠ [] := by
    intro h0
    have := alphasOf_length hl
    rw [h0] at this
    simp at this; omega
  obtain ⟨hm1, hm2⟩ := listMax_spec hane
  have ha3 : a = M.weights[k]'(by omega) * v.L.2.det := by
    have := (pyGet_iff.1 h3).symm.trans (alphasOf_get hw hv)
    exact Option.some.inj this
  have hapos : 0 < a := ha a (List.mem_of_getElem? (pyGet_iff.1 h3))
  have hmpos : 0 < listMax (alphasOf M.weights vals) := ha _ hm2
  obtain ⟨-, rfl⟩ := npLog_ok h4
  obtain ⟨hnn, rfl⟩ := npSqrt_ok h5
  refine ⟨vals, k, _, v, hs, hdom, hw, hv, listMax (alphasOf M.weights vals), ?_, ?_, ?_, _, rfl⟩
  · obtain ⟨j, hj, hje⟩ := List.getElem_of_mem hm2
    rw [alphasOf_length hl] at hj
    refine ⟨j, M.weights[j]'(by omega), vals[j], by simp, by simp, ?_⟩
    rw [← hje]
    simp [alphasOf]
  · intro j w' v' hw' hv'
    exact hm1 _ (List.mem_of_getElem? (alphasOf_get hw' hv'))
  · rw [halfSq_append, halfSq_sqrt hnn, Real.log_div hmpos.ne' hapos.ne', ha3]
    ring

theorem alphas_ne {ws : List ℝ} {vals : List CompVal} (hl : ws.length = vals.length) (hv : vals ≠ []) :
    alphasOf ws vals ≠ [] := by
  intro h0
  have := alphasOf_length hl
  rw [h0] at this
  exact hv (List.length_eq_zero_iff.1 this.symm)

theorem ne_of_get {α : Type} {l : List α} {k : ℕ} {a : α} (h : l[k]? = some a) : l ≠ [] := by
  rintro rfl; simp at h

/-- `exp(f_k - f_j) α_j ≤ α_k` when `k` is dominant. -/
theorem dom_term {a b f g : ℝ} (ha : 0 < a) (hb : 0 < b) (h : -Real.log a + f ≤ -Real.log b + g) :
    b * Real.exp (f - g) ≤ a := by
  have : Real.log b + (f - g) ≤ Real.log a := by linarith
  calc b * Real.exp (f - g) = Real.exp (Real.log b + (f - g)) := by rw [Real.exp_add, Real.exp_log hb]
    _ ≤ Real.exp (Real.log a) := Real.exp_le_exp.2 this
    _ = a := Real.exp_log ha

theorem sum_le_of {α : Type} (l : List α) (f : α → ℝ) (c : ℝ) (h : ∀ a ∈ l, f a ≤ c) :
    (l.map f).sum ≤ l.length * c := by
  induction l with
  | nil => simp
  | cons a l ih =>
    simp only [List.map_cons, List.sum_cons, List.length_cons, Nat.cast_add, Nat.cast_one]
    have := h a (by simp)
    have := ih fun b hb => h b (by simp [hb])
    linarith

/-- The Max-Sum-Mixture's normalization bounds the sum. -/
theorem maxSum_bound {ws : List ℝ} {vals : List CompVal} {k : ℕ} {w : ℝ} {v : CompVal}
    (hl : ws.length = vals.length) (ha : ∀ a ∈ alphasOf ws vals, 0 < a)
    (hd : Dominant ws vals k) (hw : ws[k]? = some w) (hv : vals[k]? = some v) :
    sumExp (halfSq v.e) (alphasOf ws vals) (vals.map CompVal.e) ≤
      (alphasOf ws vals).length * listMax (alphasOf ws vals) := by
  obtain ⟨w₀, v₀, hw0, hv0, hd⟩ := hd
  rw [hw] at hw0; rw [hv] at hv0
  cases hw0; cases hv0
  have hak := alphasOf_get hw hv
  have hane : alphasOf ws vals ≠ [] := ne_of_get hak
  have hmax := (listMax_spec hane).1
  rw [sumExp_zip]
  refine le_trans (sum_le_of _ _ (listMax (alphasOf ws vals)) ?_) ?_
  · intro p hp
    obtain ⟨j, hj, rfl⟩ := List.getElem_of_mem hp
    have hlz : j < vals.length := by
      simp only [List.length_zip, List.length_map, alphasOf_length hl, lt_min_iff] at hj
      exact hj.1
    rw [List.getElem_zip]
    have hwj : ws[j]? = some (ws[j]'(by omega)) := by simp
    have hvj : vals[j]? = some (vals[j]) := by simp
    have haj := alphasOf_get hwj hvj
    have h1 := hd j _ _ hwj hvj
    have e1 : (alphasOf ws vals)[j]'(by rw [alphasOf_length hl]; exact hlz) =
        ws[j]'(by omega) * (vals[j]).L.2.det := by simp [alphasOf]
    simp only [e1, List.getElem_map]
    refine le_trans (dom_term (ha _ (List.mem_of_getElem? hak)) (ha _ (List.mem_of_getElem? haj)) h1) ?_
    exact hmax _ (List.mem_of_getElem? hak)
  · rw [List.length_zip, alphasOf_length hl, List.length_map, min_self]

/-- **C45, Max-Sum-Mixture.** Half the squared norm of the error is the mixture's negative log-likelihood plus the
constant `log(K max α + damping)`; the error is the dominant component's followed by one entry. -/
theorem C45_max_sum (M : MixRes K S) (hM : M.WF) (d : ℝ) (xs : List S) (e : List ℝ)
    (h : M.error (.maxSum d) xs = .ok e) :
    ∃ vals, CompSpec M xs vals ∧
      ∃ amax, (∃ (j : ℕ) (w' : ℝ) (v' : CompVal), M.weights[j]? = some w' ∧ vals[j]? = some v' ∧ amax = w' * v'.L.2.det) ∧
        (∀ (j : ℕ) (w' : ℝ) (v' : CompVal), M.weights[j]? = some w' → vals[j]? = some v' → w' * v'.L.2.det ≤ amax) ∧
        halfSq e = Real.log (M.comps.length * amax + d) + mixNll M.weights vals ∧
        ∃ k v s, Dominant M.weights vals k ∧ vals[k]? = some v ∧ e = v.e ++ [s] := by
  obtain ⟨vals, hs, hl, ha, h⟩ := error_split hM h
  unfold mixErrors at h
  obtain ⟨u, -, h⟩ := bind_ok h
  replace h : mixMaxSum d (alphasOf M.weights vals) vals = .ok e := h
  unfold mixMaxSum at h
  obtain ⟨k, h1, h⟩ := bind_ok h
  obtain ⟨v, h2, h⟩ := bind_ok h
  split at h
  · cases h
  obtain ⟨nl, h3, h⟩ := bind_ok h
  cases h
  unfold maxSumNonlinear at h3
  obtain ⟨c, h4, h3⟩ := bind_ok h3
  obtain ⟨t, h5, h3⟩ := bind_ok h3
  obtain ⟨s, h6, h3⟩ := bind_ok h3
  cases h3
  obtain ⟨-, rfl⟩ := npLog_ok h4
  obtain ⟨-, rfl⟩ := npLog_ok h5
  obtain ⟨hnn, rfl⟩ := npSqrt_ok h6
  obtain ⟨hk, hdom⟩ := resValues_dominant hl h1
  have hv := pyGet_iff.1 h2
  have hvne := ne_of_get hv
  have hane := alphas_ne hl hvne
  have hene : vals.map CompVal.e ≠ [] := by simpa using hvne
  obtain ⟨hm1, hm2⟩ := listMax_spec hane
  refine ⟨vals, hs, listMax (alphasOf M.weights vals), ?_, ?_, ?_, k, v, _, hdom, hv, rfl⟩
  · obtain ⟨j, hj, hje⟩ := List.getElem_of_mem hm2
    rw [alphasOf_length hl] at hj
    refine ⟨j, M.weights[j]'(by omega), vals[j], by simp, by simp, ?_⟩
    rw [← hje]
    simp [alphasOf]
  · intro j w' v' hw' hv'
    exact hm1 _ (List.mem_of_getElem? (alphasOf_get hw' hv'))
  · rw [halfSq_append, halfSq_sqrt hnn, mixNll_eq, log_sumExp _ ha hane hene, alphasOf_length hl, hs.length_eq]
    ring

/-- **C45, Sum-Mixture.** Half the squared norm of the error is the mixture's negative log-likelihood plus the
constant `Σ α`. -/
theorem C45_sum (M : MixRes K S) (hM : M.WF) (xs : List S) (e : List ℝ) (h : M.error .sum xs = .ok e) :
    ∃ vals, CompSpec M xs vals ∧ e.length = 1 ∧
      halfSq e = ((M.weights.zip vals).map fun p => p.1 * p.2.L.2.det).sum + mixNll M.weights vals := by
  obtain ⟨vals, hs, hl, ha, h⟩ := error_split hM h
  unfold mixErrors at h
  obtain ⟨u, -, h⟩ := bind_ok h
  replace h : mixSum (alphasOf M.weights vals) vals = .ok e := h
  unfold mixSum at h
  obtain ⟨k, h1, h⟩ := bind_ok h
  obtain ⟨v, h2, h⟩ := bind_ok h
  obtain ⟨t, h5, h⟩ := bind_ok h
  obtain ⟨s, h6, h⟩ := bind_ok h
  cases h
  obtain ⟨-, rfl⟩ := npLog_ok h5
  obtain ⟨hnn, rfl⟩ := npSqrt_ok h6
  have hv := pyGet_iff.1 h2
  have hvne := ne_of_get hv
  have hane := alphas_ne hl hvne
  have hene : vals.map CompVal.e ≠ [] := by simpa using hvne
  refine ⟨vals, hs, rfl, ?_⟩
  rw [halfSq_sqrt hnn, mixNll_eq, log_sumExp _ ha hane hene]
  have : ((M.weights.zip vals).map fun p => p.1 * p.2.L.2.det) = alphasOf M.weights vals := by
    unfold alphasOf; rw [zipWith_zip]
  rw [this]
  ring

/-- **C45, Hessian-Sum-Mixture.** Half the squared norm of the error is the mixture's negative log-likelihood plus
a constant that depends only on the `α`s. -/
theorem C45_hsm (M : MixRes K S) (hM : M.WF) (xs : List S) (e : List ℝ) (h : M.error .hsm xs = .ok e) :
    ∃ vals, CompSpec M xs vals ∧
      halfSq e = Real.log ((M.weights.zip vals).map fun p => p.1 * p.2.L.2.det *
        Real.exp (((M.weights.zip vals).map fun q => q.1 * q.2.L.2.det).sum / (p.1 * p.2.L.2.det))).sum +
        mixNll M.weights vals := by
  obtain ⟨vals, hs, hl, ha, h⟩ := error_split hM h
  unfold mixErrors at h
  obtain ⟨u, -, h⟩ := bind_ok h
  replace h : mixHsm (alphasOf M.weights vals) vals = .ok e := h
  unfold mixHsm at h
  obtain ⟨k, h1, h⟩ := bind_ok h
  obtain ⟨v, h2, h⟩ := bind_ok h
  obtain ⟨t, h5, h⟩ := bind_ok h
  split at h
  · cases h
  obtain ⟨d, h6, h⟩ := bind_ok h
  cases h
  obtain ⟨-, rfl⟩ := npLog_ok h5
  obtain ⟨hnn, rfl⟩ := npSqrt_ok h6
  have hv := pyGet_iff.1 h2
  have hene : vals.map CompVal.e ≠ [] := ne_of_get hv
  have hvne : vals ≠ [] := by simpa using hene
  have hane := alphas_ne hl hvne
  refine ⟨vals, hs, ?_⟩
  have hal : ((M.weights.zip vals).map fun p => p.1 * p.2.L.2.det) = alphasOf M.weights vals := by
    unfold alphasOf; rw [zipWith_zip]
  have hc : ((M.weights.zip vals).map fun p => p.1 * p.2.L.2.det *
      Real.exp (((M.weights.zip vals).map fun q => q.1 * q.2.L.2.det).sum / (p.1 * p.2.L.2.det))) =
      (alphasOf M.weights vals).map fun a => a * Real.exp ((alphasOf M.weights vals).sum / a) := by
    rw [hal]
    conv_rhs => rw [← hal]
    rw [List.map_map]
    rw [hal]
    rfl
  rw [hc, halfSq_append, halfSq_sqrt1 hnn, mixNll_eq, log_sumExp _ ha hane hene]
  unfold hsmConst
  simp only [halfSq]
  ring

/-! The square roots never see a negative number, so the mixtures always return. -/

/-- What the caller must provide: at least one component, all of which can be evaluated, with positive `α`. -/
structure MixOk (M : MixRes K S) (xs : List S) (vals : List CompVal) : Prop where
  ok : compValues M.keys xs M.comps = .ok vals
  ne : M.comps ≠ []
  pos : ∀ (j : ℕ) (w : ℝ) (v : CompVal), M.weights[j]? = some w → vals[j]? = some v → 0 < w * v.L.2.det

theorem MixOk.facts {M : MixRes K S} {xs : List S} {vals : List CompVal} (hM : M.WF) (h : MixOk M xs vals) :
    M.weights.length = vals.length ∧ vals ≠ [] ∧ guardAlphas (alphasOf M.weights vals) = .ok () ∧
      ∀ a ∈ alphasOf M.weights vals, 0 < a := by
  have hs := compValues_spec hM.keys h.ok
  have hl : M.weights.length = vals.length := by rw [hM.weights]; exact hs.length_eq
  have hpos : ∀ a ∈ alphasOf M.weights vals, 0 < a := by
    intro a ha
    obtain ⟨j, hj, rfl⟩ := List.getElem_of_mem ha
    rw [alphasOf_length hl] at hj
    have := h.pos j (M.weights[j]'(by omega)) vals[j] (by simp) (by simp)
    simpa [alphasOf] using this
  refine ⟨hl, ?_, ?_, hpos⟩
  · rintro rfl
    exact h.ne (List.length_eq_zero_iff.1 hs.length_eq)
  · unfold guardAlphas
    rw [if_pos hpos]

theorem resValues_ne {ws : List ℝ} {vals : List CompVal} (hl : ws.length = vals.length) (hv : vals ≠ []) :
    resValues (alphasOf ws vals) (vals.map CompVal.e) ≠ [] := by
  intro h
  have : (resValues (alphasOf ws vals) (vals.map CompVal.e)).length = vals.length := by
    simp [resValues, alphasOf, hl]
  rw [h] at this
  exact hv (List.length_eq_zero_iff.1 this.symm)

/-- **C44.** The Max-Mixture always returns. -/
theorem C44_total (M : MixRes K S) (hM : M.WF) (xs : List S) (vals : List CompVal) (h : MixOk M xs vals)
    (hshape : (∀ v ∈ vals, v.column = true) ∨ (∀ v ∈ vals, v.column = false)) :
    ∃ e, M.error .max xs = .ok e := by
  obtain ⟨hl, hv, hg, hpos⟩ := h.facts hM
  obtain ⟨k, hk⟩ := npArgmin_some (resValues_ne hl hv)
  obtain ⟨hkl, hdom⟩ := resValues_dominant hl hk
  have hvk : vals[k]? = some vals[k] := by simp
  have hwk : M.weights[k]? = some (M.weights[k]'(by omega)) := by simp
  have hak := alphasOf_get hwk hvk
  have hane := alphas_ne hl hv
  obtain ⟨hm1, hm2⟩ := listMax_spec hane
  have hap := hpos _ (List.mem_of_getElem? hak)
  have hge : 1 ≤ listMax (alphasOf M.weights vals) / (M.weights[k]'(by omega) * (vals[k]).L.2.det) := by
    rw [le_div_iff₀ hap, one_mul]
    exact hm1 _ (List.mem_of_getElem? hak)
  have hsh : ((vals.any fun v => v.column) && (vals.any fun v => !v.column)) = false := by
    rw [Bool.and_eq_false_iff]
    rcases hshape with hs | hs
    · right; rw [List.any_eq_false]; intro v hv; simp [hs v hv]
    · left; rw [List.any_eq_false]; intro v hv; simp [hs v hv]
  unfold MixRes.error
  rw [h.ok, ok_bindE]
  unfold mixErrors
  rw [hg, ok_bindE]
  show ∃ e, mixMax (alphasOf M.weights vals) vals = .ok e
  unfold mixMax
  rw [if_neg (by rw [hsh]; exact Bool.false_ne_true), hk, ok_bindE, pyGet_iff.2 hvk, ok_bindE, pyGet_iff.2 hak,
    ok_bindE, npLog_pos (lt_of_lt_of_le one_pos hge), ok_bindE, npSqrt_nn (Real.log_nonneg hge), ok_bindE]
  exact ⟨_, rfl⟩

/-- **C45.** The Max-Sum-Mixture always returns, provided the component errors are 1-dimensional arrays and the
damping constant is nonnegative. -/
theorem C45_max_sum_total (M : MixRes K S) (hM : M.WF) (d : ℝ) (hd : 0 ≤ d) (xs : List S) (vals : List CompVal)
    (h : MixOk M xs vals) (hshape : ∀ v ∈ vals, v.column = false) :
    ∃ e, M.error (.maxSum d) xs = .ok e := by
  obtain ⟨hl, hv, hg, hpos⟩ := h.facts hM
  obtain ⟨k, hk⟩ := npArgmin_some (resValues_ne hl hv)
  obtain ⟨hkl, hdom⟩ := resValues_dominant hl hk
  have hvk : vals[k]? = some vals[k] := by simp
  have hwk : M.weights[k]? = some (M.weights[k]'(by omega)) := by simp
  have hane := alphas_ne hl hv
  have hene : vals.map CompVal.e ≠ [] := by simpa using hv
  have hb := maxSum_bound hl hpos hdom hwk hvk
  have hsp := sumExp_pos (halfSq vals[k].e) hpos hane hene
  have hsh : (vals.any fun v => v.column) = false := by
    rw [List.any_eq_false]; intro v hv; simp [hshape v hv]
  have hle : sumExp (halfSq vals[k].e) (alphasOf M.weights vals) (vals.map CompVal.e) ≤
      (alphasOf M.weights vals).length * listMax (alphasOf M.weights vals) + d := by linarith
  unfold MixRes.error
  rw [h.ok, ok_bindE]
  unfold mixErrors
  rw [hg, ok_bindE]
  show ∃ e, mixMaxSum d (alphasOf M.weights vals) vals = .ok e
  unfold mixMaxSum
  rw [hk, ok_bindE, pyGet_iff.2 hvk, ok_bindE, if_neg (by rw [hsh]; exact Bool.false_ne_true)]
  unfold maxSumNonlinear
  rw [npLog_pos (lt_of_lt_of_le hsp hle), ok_bindE, npLog_pos hsp, ok_bindE,
    npSqrt_nn (sub_nonneg.2 (Real.log_le_log hsp hle)), ok_bindE]
  exact ⟨_, rfl⟩

/-- **C45, negation.** With components whose errors are columns (those of `MeasurementResidual`) the
Max-Sum-Mixture raises `ValueError`. -/
theorem C45_max_sum_column_raises (M : MixRes K S) (hM : M.WF) (d : ℝ) (xs : List S) (vals : List CompVal)
    (h : MixOk M xs vals) (v : CompVal) (hv : v ∈ vals) (hc : v.column = true) :
    M.error (.maxSum d) xs = .error .valueError := by
  obtain ⟨hl, hne, hg, hpos⟩ := h.facts hM
  obtain ⟨k, hk⟩ := npArgmin_some (resValues_ne hl hne)
  obtain ⟨hkl, hdom⟩ := resValues_dominant hl hk
  have hvk : vals[k]? = some vals[k] := by simp
  have hsh : (vals.any fun v => v.column) = true := List.any_eq_true.2 ⟨v, hv, hc⟩
  unfold MixRes.error
  rw [h.ok, ok_bindE]
  unfold mixErrors
  rw [hg, ok_bindE]
  show mixMaxSum d (alphasOf M.weights vals) vals = _
  unfold mixMaxSum
  rw [hk, ok_bindE, pyGet_iff.2 hvk, ok_bindE, if_pos hsh]

theorem sumExp_le_sum {al : List ℝ} {es : List (List ℝ)} (ha : ∀ a ∈ al, 0 < a) (hl : al.length = es.length) :
    sumExp 0 al es ≤ al.sum := by
  have : al = (al.zip es).map Prod.fst := by rw [List.map_fst_zip]; omega
  conv_rhs => rw [this]
  rw [sumExp_zip]
  apply List.sum_le_sum
  intro p hp
  have hp1 := ha _ (mem_zip_left hp)
  have : Real.exp (0 - halfSq p.2) ≤ 1 := by
    rw [Real.exp_le_one_iff]; have := halfSq_nonneg p.2; linarith
  nlinarith

/-- **C45.** The Sum-Mixture always returns. -/
theorem C45_sum_total (M : MixRes K S) (hM : M.WF) (xs : List S) (vals : List CompVal) (h : MixOk M xs vals) :
    ∃ e, M.error .sum xs = .ok e := by
  obtain ⟨hl, hv, hg, hpos⟩ := h.facts hM
  obtain ⟨k, hk⟩ := npArgmin_some (resValues_ne hl hv)
  obtain ⟨hkl, hdom⟩ := resValues_dominant hl hk
  have hvk : vals[k]? = some vals[k] := by simp
  have hane := alphas_ne hl hv
  have hene : vals.map CompVal.e ≠ [] := by simpa using hv
  have hsp := sumExp_pos (halfSq vals[k].e) hpos hane hene
  have hs0 := sumExp_pos 0 hpos hane hene
  have hle := sumExp_le_sum (es := vals.map CompVal.e) hpos (by simp [alphasOf_length hl])
  have hnn : 0 ≤ (alphasOf M.weights vals).sum + halfSq vals[k].e -
      Real.log (sumExp (halfSq vals[k].e) (alphasOf M.weights vals) (vals.map CompVal.e)) := by
    rw [log_sumExp _ hpos hane hene]
    have h1 := Real.log_le_log hs0 hle
    have h2 := Real.log_le_sub_one_of_pos (lt_of_lt_of_le hs0 hle)
    linarith
  unfold MixRes.error
  rw [h.ok, ok_bindE]
  unfold mixErrors
  rw [hg, ok_bindE]
  show ∃ e, mixSum (alphasOf M.weights vals) vals = .ok e
  unfold mixSum
  rw [hk, ok_bindE, pyGet_iff.2 hvk, ok_bindE, npLog_pos hsp, ok_bindE, npSqrt_nn hnn, ok_bindE]
  exact ⟨_, rfl⟩

/-- Squared norm of the stacked error: `Σ_k p_k ‖e_k‖²`. -/
theorem hsmStack_sq (ps : List ℝ) (es : List (List ℝ)) (hp : ∀ p ∈ ps, 0 ≤ p) :
    ((hsmStack ps es).map fun x => x * x).sum = ((ps.zip es).map fun q => q.1 * (2 * halfSq q.2)).sum := by
  induction ps generalizing es with
  | nil => simp [hsmStack]
  | cons p ps ih =>
    cases es with
    | nil => simp [hsmStack]
    | cons e es =>
      have h1 := ih es fun q hq => hp q (by simp [hq])
      unfold hsmStack at h1 ⊢
      simp only [List.zipWith_cons_cons, List.flatten_cons, List.map_append, List.sum_append, List.zip_cons_cons,
        List.map_cons, List.sum_cons]
      rw [h1]
      congr 1
      rw [List.map_map]
      have : ((fun x => x * x) ∘ fun x => Real.sqrt p * x) = fun x => p * (x * x) := by
        funext x
        have := Real.mul_self_sqrt (hp p (by simp))
        simp only [Function.comp]
        calc Real.sqrt p * x * (Real.sqrt p * x) = (Real.sqrt p * Real.sqrt p) * (x * x) := by ring
          _ = p * (x * x) := by rw [this]
      rw [this, List.sum_map_mul_left]
      unfold halfSq
      ring

theorem hsmWeights_zip (c : ℝ) (al : List ℝ) (es : List (List ℝ)) :
    (hsmWeights c al es).zip es =
      (al.zip es).map fun p => (p.1 * Real.exp (c - halfSq p.2) / sumExp c al es, p.2) := by
  unfold hsmWeights
  generalize sumExp c al es = Z
  induction al generalizing es with
  | nil => simp
  | cons a al ih =>
    cases es with
    | nil => simp
    | cons e es => simp [ih es]

/-- Gibbs' inequality: `Σ_k p_k f_k + log Z ≤ log Σ α`. -/
theorem gibbs {al : List ℝ} {es : List (List ℝ)} (ha : ∀ a ∈ al, 0 < a) (hl : al.length = es.length)
    (hne : al ≠ []) :
    ((al.zip es).map fun p => p.1 * Real.exp (-halfSq p.2) / sumExp 0 al es * halfSq p.2).sum +
      Real.log (sumExp 0 al es) ≤ Real.log al.sum := by
  have hes : es ≠ [] := by
    rintro rfl; exact hne (List.length_eq_zero_iff.1 hl)
  have hZ := sumExp_pos 0 ha hne hes
  have hAZ := sumExp_le_sum ha hl
  have hA : 0 < al.sum := lt_of_lt_of_le hZ hAZ
  set Z := sumExp 0 al es with hZdef
  set A := al.sum with hAdef
  have hal : (al.zip es).map Prod.fst = al := by rw [List.map_fst_zip]; omega
  have hterm : ((al.zip es).map fun p => p.1 * Real.exp (-halfSq p.2) / Z * (halfSq p.2 + Real.log Z - Real.log A)).sum ≤
      ((al.zip es).map fun p => p.1 / A - p.1 * Real.exp (-halfSq p.2) / Z).sum := by
    apply List.sum_le_sum
    intro p hp
    have hp1 := ha _ (mem_zip_left hp)
    have hx := Real.add_one_le_exp (halfSq p.2 + Real.log Z - Real.log A)
    rw [Real.exp_sub, Real.exp_add, Real.exp_log hZ, Real.exp_log hA] at hx
    have hq : 0 < p.1 * Real.exp (-halfSq p.2) / Z := div_pos (mul_pos hp1 (Real.exp_pos _)) hZ
    have := mul_le_mul_of_nonneg_left hx hq.le
    have e1 : p.1 * Real.exp (-halfSq p.2) / Z * (Real.exp (halfSq p.2) * Z / A) = p.1 / A := by
      rw [Real.exp_neg]
      field_simp
    rw [e1] at this
    linarith
  have hsumP : ((al.zip es).map fun p => p.1 * Real.exp (-halfSq p.2) / Z).sum = 1 := by
    have : ((al.zip es).map fun p => p.1 * Real.exp (-halfSq p.2) / Z) =
        (al.zip es).map fun p => p.1 * Real.exp (0 - halfSq p.2) * Z⁻¹ := by
      apply List.map_congr_left; intro p _; rw [zero_sub]; rfl
    rw [this, List.sum_map_mul_right, ← sumExp_zip]
    exact mul_inv_cancel₀ hZ.ne'
  have hsumA : ((al.zip es).map fun p => p.1 / A).sum = 1 := by
    have : ((al.zip es).map fun p => p.1 / A) = (al.zip es).map fun p => p.1 * A⁻¹ := by
      apply List.map_congr_left; intro p _; rfl
    rw [this, List.sum_map_mul_right, hal]
    exact mul_inv_cancel₀ hA.ne'
  have hr : ((al.zip es).map fun p => p.1 / A - p.1 * Real.exp (-halfSq p.2) / Z).sum = 0 := by
    have : ((al.zip es).map fun p => p.1 / A - p.1 * Real.exp (-halfSq p.2) / Z) =
        (al.zip es).map fun p => p.1 / A + (-1) * (p.1 * Real.exp (-halfSq p.2) / Z) := by
      apply List.map_congr_left; intro p _; ring
    rw [this, List.sum_map_add, List.sum_map_mul_left, hsumA, hsumP]; ring
  have hlft : ((al.zip es).map fun p => p.1 * Real.exp (-halfSq p.2) / Z * (halfSq p.2 + Real.log Z - Real.log A)).sum =
      ((al.zip es).map fun p => p.1 * Real.exp (-halfSq p.2) / Z * halfSq p.2).sum + (Real.log Z - Real.log A) := by
    have : ((al.zip es).map fun p => p.1 * Real.exp (-halfSq p.2) / Z * (halfSq p.2 + Real.log Z - Real.log A)) =
        (al.zip es).map fun p => p.1 * Real.exp (-halfSq p.2) / Z * halfSq p.2 +
          p.1 * Real.exp (-halfSq p.2) / Z * (Real.log Z - Real.log A) := by
      apply List.map_congr_left; intro p _; ring
    rw [this, List.sum_map_add, List.sum_map_mul_right, hsumP, one_mul]
  rw [hr, hlft] at hterm
  linarith

theorem hsmConst_ge {al : List ℝ} (ha : ∀ a ∈ al, 0 < a) (hne : al ≠ []) : Real.log al.sum ≤ hsmConst al := by
  have hA : 0 < al.sum := by
    have := sum_pos_of al id (fun a h => ha a h) hne
    simpa using this
  unfold hsmConst
  apply Real.log_le_log hA
  conv_lhs => rw [← List.map_id al]
  apply List.sum_le_sum
  intro a h
  have hp := ha a h
  have h0 : 0 ≤ al.sum / a := (div_pos hA hp).le
  have := Real.one_le_exp h0
  simp only [id]
  nlinarith

/-- **C45.** The Hessian-Sum-Mixture always returns, provided the component errors have more than one entry in
total. -/
theorem C45_hsm_total (M : MixRes K S) (hM : M.WF) (xs : List S) (vals : List CompVal) (h : MixOk M xs vals)
    (hsize : (vals.map fun v => v.e.length).sum ≠ 1) : ∃ e, M.error .hsm xs = .ok e := by
  obtain ⟨hl, hv, hg, hpos⟩ := h.facts hM
  have hane := alphas_ne hl hv
  have hene : vals.map CompVal.e ≠ [] := by simpa using hv
  obtain ⟨k, hk⟩ := npArgmin_some (l := (vals.map CompVal.e).map halfSq) (by simpa using hv)
  obtain ⟨hkl, -, -⟩ := npArgmin_spec hk
  rw [List.length_map] at hkl
  have hek : (vals.map CompVal.e)[k]? = some (vals.map CompVal.e)[k] := List.getElem?_eq_getElem hkl
  set ek := (vals.map CompVal.e)[k] with hekdef
  set al := alphasOf M.weights vals with hal
  set es := vals.map CompVal.e with hes
  have hles : al.length = es.length := by rw [hal, alphasOf_length hl, hes, List.length_map]
  have hsp := sumExp_pos (halfSq ek) hpos hane hene
  have hlen : (hsmStack (hsmWeights (halfSq ek) al es) es).length ≠ 1 := by
    have hw : (hsmWeights (halfSq ek) al es).length = es.length := by simp [hsmWeights, hles]
    have : ∀ (ps : List ℝ) (es : List (List ℝ)), ps.length = es.length →
        (hsmStack ps es).length = (es.map List.length).sum := by
      intro ps
      induction ps with
      | nil =>
        intro es h
        have : es = [] := List.length_eq_zero_iff.1 h.symm
        subst this; simp [hsmStack]
      | cons p ps ih =>
        intro es h
        cases es with
        | nil => simp at h
        | cons e es =>
          have := ih es (by simpa using h)
          unfold hsmStack at this ⊢
          simp only [List.zipWith_cons_cons, List.flatten_cons, List.length_append, List.length_map, List.map_cons,
            List.sum_cons]
          omega
    rw [this _ _ hw, hes, List.map_map]
    exact hsize
  have hps : ∀ p ∈ hsmWeights (halfSq ek) al es, 0 ≤ p := by
    intro p hp
    unfold hsmWeights at hp
    rw [zipWith_zip] at hp
    obtain ⟨q, hq, rfl⟩ := List.mem_map.1 hp
    exact (div_pos (mul_pos (hpos _ (mem_zip_left hq)) (Real.exp_pos _)) hsp).le
  have hnn : 0 ≤ 2 * (hsmConst al + halfSq ek - Real.log (sumExp (halfSq ek) al es)) -
      ((hsmStack (hsmWeights (halfSq ek) al es) es).map fun x => x * x).sum := by
    rw [hsmStack_sq _ _ hps, hsmWeights_zip, List.map_map, log_sumExp _ hpos hane hene]
    have e1 : ((al.zip es).map ((fun q : ℝ × List ℝ => q.1 * (2 * halfSq q.2)) ∘
        fun p => (p.1 * Real.exp (halfSq ek - halfSq p.2) / sumExp (halfSq ek) al es, p.2))) =
        (al.zip es).map fun p => 2 * (p.1 * Real.exp (-halfSq p.2) / sumExp 0 al es * halfSq p.2) := by
      apply List.map_congr_left
      intro p _
      have hZ := (sumExp_pos 0 hpos hane hene).ne'
      have hE := Real.exp_ne_zero (halfSq ek)
      simp only [Function.comp]
      rw [sumExp_shift (halfSq ek), sub_eq_add_neg, Real.exp_add]
      field_simp
    rw [e1, List.sum_map_mul_left]
    have := gibbs hpos hles hane
    have := hsmConst_ge hpos hane
    linarith
  unfold MixRes.error
  rw [h.ok, ok_bindE]
  unfold mixErrors
  rw [hg, ok_bindE]
  show ∃ e, mixHsm al vals = .ok e
  unfold mixHsm
  simp only [← hes]
  rw [hk, ok_bindE, pyGet_iff.2 hek, ok_bindE, npLog_pos hsp, ok_bindE, if_neg hlen, npSqrt_nn hnn, ok_bindE]
  exact ⟨_, rfl⟩

/-- **C45, negation.** A Hessian-Sum-Mixture whose component errors have a single entry in total (one component
with a scalar error) raises `ValueError`: the stacked error is squeezed to a 0-dimensional array. -/
theorem C45_hsm_scalar_raises (M : MixRes K S) (hM : M.WF) (xs : List S) (v : CompVal) (h : MixOk M xs [v])
    (h1 : v.e.length = 1) : M.error .hsm xs = .error .valueError := by
  obtain ⟨hl, hv, hg, hpos⟩ := h.facts hM
  have hane := alphas_ne hl hv
  obtain ⟨w, hw⟩ : ∃ w, M.weights = [w] := List.length_eq_one_iff.1 (by simpa using hl)
  have hsp := sumExp_pos (halfSq v.e) (es := [v.e]) hpos hane (by simp)
  unfold MixRes.error
  rw [h.ok, ok_bindE]
  unfold mixErrors
  rw [hg, ok_bindE]
  show mixHsm (alphasOf M.weights [v]) [v] = .error .valueError
  unfold mixHsm
  simp only [List.map_cons, List.map_nil]
  show ((Except.ok 0 : Except Err ℕ) >>= _) = _
  rw [ok_bindE]
  show ((Except.ok v.e : Except Err (List ℝ)) >>= _) = _
  rw [ok_bindE, npLog_pos hsp, ok_bindE, if_pos]
  rw [hw]
  simp [alphasOf, hsmWeights, hsmStack, h1]

/-! A mixture that meets the hypotheses: two components `e_1 = (x, 1)`, `e_2 = (x - 1, 2)` on one real state. -/

/-- A component with error `(x - c, d)`. -/
noncomputable def exComp (c d : ℝ) : MixComp ℕ ℝ where
  res := ⟨[7], fun xs => .ok [xs.headD 0 - c, d], fun _ _ => .ok [some ⟨2, 1, fun i _ => if i = 0 then 1 else 0⟩]⟩
  sqrtInfo _ := .ok ⟨2, 1⟩
  column := false

noncomputable def exMix : MixRes ℕ ℝ := ⟨[exComp 0 1, exComp 1 2], [1 / 4, 3 / 4], [7]⟩

theorem exMix_new : MixRes.new [exComp 0 1, exComp 1 2] [1, 3] = .ok exMix := by
  unfold MixRes.new
  rw [if_neg (by norm_num)]
  have : unionKeys [exComp 0 1, exComp 1 2] = [7] := by simp [unionKeys, exComp]
  rw [this]
  unfold exMix
  norm_num

theorem exMix_wf : exMix.WF := (C44_ctor _ _ _ exMix_new rfl).1

theorem exMix_ok (x : ℝ) : MixOk exMix [x] [⟨[x - 0, 1], ⟨2, 1⟩, false⟩, ⟨[x - 1, 2], ⟨2, 1⟩, false⟩] := by
  refine ⟨?_, by simp [exMix], ?_⟩
  · simp [exMix, exComp, compValues, pickAll, pyGet, bind, Except.bind, pure, Except.pure]
  · intro j w v hw hv
    match j, hw, hv with
    | 0, hw, hv => simp [exMix] at hw hv; subst hw hv; simp
    | 1, hw, hv => simp [exMix] at hw hv; subst hw hv; simp
    | j + 2, hw, hv => simp at hv

example (x : ℝ) : (∃ e, exMix.error .max [x] = .ok e) ∧ (∃ e, exMix.error (.maxSum 10) [x] = .ok e) ∧
    (∃ e, exMix.error .sum [x] = .ok e) ∧ (∃ e, exMix.error .hsm [x] = .ok e) :=
  ⟨C44_total _ exMix_wf _ _ (exMix_ok x) (.inr (by simp)),
   C45_max_sum_total _ exMix_wf _ (by norm_num) _ _ (exMix_ok x) (by simp),
   C45_sum_total _ exMix_wf _ _ (exMix_ok x), C45_hsm_total _ exMix_wf _ _ (exMix_ok x) (by norm_num)⟩

end Verif
