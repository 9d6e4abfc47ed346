import Verif.Lemmas.Assembly
import Verif.Props.Problem
import Mathlib.Analysis.SpecialFunctions.Sqrt
import Mathlib.Algebra.Order.BigOperators.Ring.Finset

/-!
Property theorems about the assembly of the stacked error and Jacobian (`navlie/batch/problem.py`; C37, C38) and
about one Gauss-Newton step on an affine problem (C40).
-/

namespace Verif

set_option linter.unusedVariables false
set_option linter.unusedSectionVars false

open Matrix

variable {K S : Type} [DecidableEq K]

theorem started_slices {o : VarOps S} {P P1 : Prob K S} (h : P.started o = .ok P1) :
    rowSlices P.varsInit P.residuals 0 = .ok (P1.resSlices, P1.sizeErr) ∧
    P1.varSlices = (colSlices o P.constKeys P.varsInit 0 P.varSlices).1 ∧
    P1.sizeState = (colSlices o P.constKeys P.varsInit 0 P.varSlices).2 := by
  unfold Prob.started Prob.computeSize at h
  obtain ⟨⟨rs, m⟩, h1, h⟩ := bind_ok h
  cases h
  exact ⟨h1, rfl, rfl⟩

/-! ### C37 -/

/-- **C37.** Rows: one slice per residual in insertion order, as long as the residual's error, the first one starting
at 0, each one starting where the previous one ends; together they cover exactly `[0, total)`, each row once. -/
theorem C37_rows (o : VarOps S) (P P1 : Prob K S) (h : P.started o = .ok P1) :
    P1.resSlices.length = P.residuals.length ∧
    (∀ (i : ℕ) (r : Residual K S), P.residuals[i]? = some r → ∃ (xs : List S) (e : List ℝ) (s : Slice),
      lookupAll P.varsInit r.keys = .ok xs ∧ r.error xs = .ok e ∧ P1.resSlices[i]? = some s ∧
      s.stop = s.start + e.length) ∧
    (∀ s, P1.resSlices[0]? = some s → s.start = 0) ∧
    (∀ i s s', P1.resSlices[i]? = some s → P1.resSlices[i + 1]? = some s' → s'.start = s.stop) ∧
    (∀ s, P1.resSlices.getLast? = some s → s.stop = P1.sizeErr) ∧
    (∀ q, q < P1.sizeErr → ∃! i : ℕ, ∃ s : Slice, P1.resSlices[i]? = some s ∧ s.start ≤ q ∧ q < s.stop) := by
  obtain ⟨h1, -, -⟩ := started_slices h
  obtain ⟨sizes, ⟨hl, hs⟩, hlen, htot, hsl⟩ := rowSlices_spec h1
  simp only [Nat.zero_add] at htot hsl
  have hsl' : ∀ i s, P1.resSlices[i]? = some s → i < P.residuals.length ∧
      s = ⟨pre sizes i, pre sizes (i + 1)⟩ := by
    intro i s hi
    have hi' : i < P.residuals.length := hlen ▸ (List.getElem?_eq_some_iff.1 hi).1
    refine ⟨hi', ?_⟩
    rw [hsl i hi'] at hi
    exact (Option.some.inj hi).symm
  refine ⟨hlen, ?_, ?_, ?_, ?_, ?_⟩
  · intro i r hr
    obtain ⟨xs, e, g1, g2, g3⟩ := hs i r hr
    have hi : i < P.residuals.length := (List.getElem?_eq_some_iff.1 hr).1
    refine ⟨xs, e, _, g1, g2, hsl i hi, ?_⟩
    obtain ⟨hi2, hi3⟩ := List.getElem?_eq_some_iff.1 g3
    show pre sizes (i + 1) = pre sizes i + e.length
    rw [pre_succ sizes i hi2, hi3]
  · intro s hs0
    rw [(hsl' 0 s hs0).2]
    exact pre_zero sizes
  · intro i s s' hi hi'
    rw [(hsl' i s hi).2, (hsl' _ s' hi').2]
  · intro s hlast
    rw [List.getLast?_eq_getElem?] at hlast
    obtain ⟨hi, rfl⟩ := hsl' _ s hlast
    show pre sizes (P1.resSlices.length - 1 + 1) = _
    rw [htot, show P1.resSlices.length - 1 + 1 = sizes.length by omega, pre_length]
  · intro q hq
    obtain ⟨i, ⟨a1, a2, a3⟩, huni⟩ := pre_partition sizes q (by omega)
    refine ⟨i, ⟨_, hsl i (by omega), a2, a3⟩, ?_⟩
    rintro j ⟨s, hj, hj1, hj2⟩
    obtain ⟨hjl, rfl⟩ := hsl' j s hj
    exact huni j ⟨by omega, hj1, hj2⟩

/-- **C37.** Columns: one slice per non-constant variable in insertion order, as wide as its degrees of freedom,
consecutive from 0, and together they cover exactly `[0, total)` — whatever earlier solves left in the dictionary. -/
theorem C37_columns (o : VarOps S) (P P1 : Prob K S) (h : P.started o = .ok P1)
    (hn : (P.varsInit.map Prod.fst).Nodup) :
    (∀ (j : ℕ) (k : K) (x : S), (freeVars P.constKeys P.varsInit)[j]? = some (k, x) → ∃ s : Slice,
      P1.varSlices.lookup k = some s ∧ s.stop = s.start + o.dof x ∧ (j = 0 → s.start = 0) ∧
      (∀ (k' : K) (x' : S), (freeVars P.constKeys P.varsInit)[j + 1]? = some (k', x') →
        ∃ s' : Slice, P1.varSlices.lookup k' = some s' ∧ s'.start = s.stop)) ∧
    P1.sizeState = (((freeVars P.constKeys P.varsInit).map fun p => o.dof p.2)).sum ∧
    (∀ c, c < P1.sizeState → ∃! k : K, (∃ x, (k, x) ∈ freeVars P.constKeys P.varsInit) ∧
      ∃ s : Slice, P1.varSlices.lookup k = some s ∧ s.start ≤ c ∧ c < s.stop) := by
  obtain ⟨-, h2, h3⟩ := started_slices h
  obtain ⟨g1, g2⟩ := colSlices_spec (o := o) (const := P.constKeys) P.varsInit 0 P.varSlices hn
  simp only [Nat.zero_add] at g1 g2
  rw [← h3] at g1
  rw [← h2] at g2
  have hlen : (freeDofs o P.constKeys P.varsInit).length = (freeVars P.constKeys P.varsInit).length := by
    simp [freeDofs]
  refine ⟨?_, g1, ?_⟩
  · intro j k x hj
    refine ⟨_, g2 j k x hj, ?_, ?_, ?_⟩
    · obtain ⟨hj1, hj2⟩ := List.getElem?_eq_some_iff.1 hj
      show pre _ (j + 1) = pre _ j + _
      rw [pre_succ _ j (by omega)]
      congr 1
      simp only [freeDofs, List.getElem_map, hj2]
    · rintro rfl; exact pre_zero (freeDofs o P.constKeys P.varsInit)
    · intro k' x' hj'
      exact ⟨_, g2 _ k' x' hj', rfl⟩
  · intro c hc
    rw [g1] at hc
    obtain ⟨j, ⟨a1, a2, a3⟩, huni⟩ := pre_partition _ c hc
    have hj : (freeVars P.constKeys P.varsInit)[j]? = some ((freeVars P.constKeys P.varsInit)[j]'(by omega)) :=
      List.getElem?_eq_getElem (by omega)
    refine ⟨((freeVars P.constKeys P.varsInit)[j]'(by omega)).1,
      ⟨⟨_, List.getElem_mem _⟩, _, g2 j _ _ hj, a2, a3⟩, ?_⟩
    rintro k ⟨⟨x, hx⟩, s, hs, hs1, hs2⟩
    obtain ⟨j', hj', hj''⟩ := List.getElem_of_mem hx
    have hjj : (freeVars P.constKeys P.varsInit)[j']? = some (k, x) := by
      rw [List.getElem?_eq_getElem hj', hj'']
    have := g2 j' k x hjj
    rw [hs] at this
    cases this
    have := huni j' ⟨by omega, hs1, hs2⟩
    subst this
    simp only [hj'']

theorem freeVars_nodup {const : List K} {vars : List (K × S)} (hn : (vars.map Prod.fst).Nodup) :
    ((freeVars const vars).map Prod.fst).Nodup :=
  (List.filter_sublist.map Prod.fst).nodup hn

theorem lookupAll_mem {vars : List (K × S)} : ∀ {ks : List K} {xs : List S}, lookupAll vars ks = .ok xs →
    ∀ k ∈ ks, k ∈ vars.map Prod.fst
  | [], xs, h, k, hk => by simp at hk
  | q :: ks, xs, h, k, hk => by
    unfold lookupAll at h
    obtain ⟨x, h1, h⟩ := bind_ok h
    obtain ⟨ys, h2, h⟩ := bind_ok h
    rcases List.mem_cons.1 hk with rfl | hk
    · have := dictGet_ok.1 h1
      by_contra hc
      have : List.lookup k vars = none := by
        rw [List.lookup_eq_none_iff]
        intro p hp
        simp only [beq_eq_false_iff_ne, bne_iff_ne]
        rintro rfl
        exact hc (List.mem_map_of_mem hp)
      simp_all
    · exact lookupAll_mem h2 k hk

/-- **C37, C38.** The rows of residual `i`: the error and the Jacobian of each of its non-constant keys stand in the
slices of the residual and the key, scaled by the square root of the loss's weight; every other entry of these rows
is zero. -/
theorem C37_block (o : VarOps S) (P P1 : Prob K S) (h : P.started o = .ok P1)
    (hn : (P.varsInit.map Prod.fst).Nodup)
    (vars : List (K × S)) (hv : vars.map Prod.fst = P.varsInit.map Prod.fst) (L : Lin)
    (hL : P1.linearize vars = .ok L)
    (i : ℕ) (r : Residual K S) (ls : Loss) (hi : (P.residuals.zip P.losses)[i]? = some (r, ls))
    (s : Slice) (hs : P1.resSlices[i]? = some s)
    (xs : List S) (err : List ℝ) (jacs : List (Option DMat)) (hxs : lookupAll vars r.keys = .ok xs)
    (herr : r.error xs = .ok err)
    (hjac : r.jacobians xs (r.keys.map fun k => !(P.constKeys.contains k)) = .ok jacs)
    (hsize : err.length = s.stop - s.start) (hkeys : r.keys.Nodup)
    (hconst : ∀ (t : ℕ) (k : K) (J : DMat), r.keys[t]? = some k → k ∈ P.constKeys → jacs[t]? ≠ some (some J)) :
    ∀ (q : Fin L.m) (a : ℕ), (q : ℕ) = s.start + a → a < err.length →
      L.e q = Real.sqrt (ls.weight (listNorm err)) * err.getD a 0 ∧
      (∀ (t : ℕ) (k : K) (J : DMat) (cs : Slice), r.keys[t]? = some k → jacs[t]? = some (some J) →
        P1.varSlices.lookup k = some cs → J.rows = err.length → J.cols = cs.stop - cs.start →
        ∀ (p : Fin L.n) (c : ℕ), (p : ℕ) = cs.start + c → c < J.cols →
          L.H q p = Real.sqrt (ls.weight (listNorm err)) * J.get a c) ∧
      (∀ p : Fin L.n, (∀ (t : ℕ) (k : K) (J : DMat) (cs : Slice), r.keys[t]? = some k → jacs[t]? = some (some J) →
        P1.varSlices.lookup k = some cs → ¬ (cs.start ≤ (p : ℕ) ∧ (p : ℕ) < cs.stop)) → L.H q p = 0) := by
  obtain ⟨e1, e2, e3, e4, e5, e6, -, -⟩ := started_fields h
  obtain ⟨rows1, rows2, rows3, rows4, rows5, rows6⟩ := C37_rows o P P1 h
  obtain ⟨-, h2, h3⟩ := started_slices h
  obtain ⟨c1, c2⟩ := colSlices_spec (o := o) (const := P.constKeys) P.varsInit 0 P.varSlices hn
  simp only [Nat.zero_add] at c1 c2
  rw [← h3] at c1
  rw [← h2] at c2
  unfold Prob.linearize at hL
  obtain ⟨A, hA, hL⟩ := bind_ok hL
  cases hL
  rw [e4, e5] at hA
  have hbound : ∀ (j : ℕ) (s : Slice), P1.resSlices[j]? = some s → s.start ≤ s.stop := by
    intro j s hj
    have hjl : j < P.residuals.length := rows1 ▸ (List.getElem?_eq_some_iff.1 hj).1
    obtain ⟨_, e, s', -, -, g, g'⟩ := rows2 j _ (List.getElem?_eq_getElem hjl)
    rw [hj] at g; cases g; omega
  have hle : ∀ (j : ℕ) (s : Slice), P1.resSlices[j]? = some s → s.stop ≤ P1.sizeErr := by
    obtain ⟨hr, -, -⟩ := started_slices h
    obtain ⟨sizes, ⟨hl, hs⟩, hlen, htot, hsl⟩ := rowSlices_spec hr
    simp only [Nat.zero_add] at htot hsl
    intro j s hj
    have hjl : j < P.residuals.length := rows1 ▸ (List.getElem?_eq_some_iff.1 hj).1
    rw [hsl j hjl] at hj
    cases hj
    show pre _ _ ≤ _
    rw [htot]; exact pre_le_sum _ _
  obtain ⟨xs', err', jacs', e0, e', H0, H1, g1, g2, g3, g4, g5, g6, g7, g8⟩ := asmLoop_residual hA (by
    intro i j s s' hij hs hs' q ⟨q1, q2, q3, q4⟩
    obtain ⟨i0, -, huni⟩ := rows6 q (lt_of_lt_of_le q2 (hle i s hs))
    exact hij ((huni i ⟨s, hs, q1, q2⟩).trans (huni j ⟨s', hs', q3, q4⟩).symm)) i r ls hi s hs
  rw [hxs] at g1; cases g1
  rw [herr] at g2; cases g2
  rw [e3, hjac] at g3; cases g3
  have hss := hbound i s hs
  have hsl := hle i s hs
  have hcol : ∀ (t : ℕ) (k : K) (J : DMat), r.keys[t]? = some k → jacs[t]? = some (some J) →
      ∃ (j : ℕ) (x : S), (freeVars P.constKeys P.varsInit)[j]? = some (k, x) := by
    intro t k J ht hJ
    have hk : k ∉ P.constKeys := fun hk => hconst t k J ht hk hJ
    have hmem : k ∈ P.varsInit.map Prod.fst := by
      rw [← hv]; exact lookupAll_mem hxs k (List.mem_of_getElem? ht)
    obtain ⟨⟨k', x⟩, hp, rfl⟩ := List.mem_map.1 hmem
    have : (k', x) ∈ freeVars P.constKeys P.varsInit := by
      unfold freeVars
      rw [List.mem_filter]
      exact ⟨hp, by simpa using hk⟩
    obtain ⟨j, hj, hj'⟩ := List.getElem_of_mem this
    exact ⟨j, x, by rw [List.getElem?_eq_getElem hj, hj']⟩
  have hdis : DisjointCols P1.varSlices r.keys jacs := by
    intro t t' k k' J J' cs cs' hne q1 q2 q3 q4 q5 q6 c ⟨d1, d2, d3, d4⟩
    obtain ⟨j, x, hj⟩ := hcol t k J q1 q3
    obtain ⟨j', x', hj'⟩ := hcol t' k' J' q2 q4
    have hkk : k ≠ k' := by
      rintro rfl
      obtain ⟨ht, ht1⟩ := List.getElem?_eq_some_iff.1 q1
      obtain ⟨ht', ht1'⟩ := List.getElem?_eq_some_iff.1 q2
      exact hne ((List.Nodup.getElem_inj_iff hkeys).1 (ht1.trans ht1'.symm))
    have hjj : j ≠ j' := by
      rintro rfl
      rw [hj] at hj'; cases hj'; exact hkk rfl
    rw [c2 j k x hj] at q5
    rw [c2 j' k' x' hj'] at q6
    cases q5; cases q6
    simp only at d1 d2 d3 d4
    rcases Nat.lt_or_gt_of_ne hjj with hlt | hlt
    · have := pre_mono (freeDofs o P.constKeys P.varsInit) (show j + 1 ≤ j' by omega); omega
    · have := pre_mono (freeDofs o P.constKeys P.varsInit) (show j' + 1 ≤ j by omega); omega
  intro q a hq ha
  obtain ⟨f1, f2, f3⟩ := g8 (q : ℕ) (by omega) (by omega)
  refine ⟨?_, ?_, ?_⟩
  · show A.e q = _
    rw [f1, hq, (setSeg_ok g4).2 (by rw [List.length_map]; exact hsize) a (by rw [List.length_map]; exact ha)]
    rw [List.getD_eq_getElem?_getD, List.getD_eq_getElem?_getD, List.getElem?_map,
      List.getElem?_eq_getElem ha]
    rfl
  · intro t k J cs ht hJ hcs hJr hJc p c hp hc
    show A.H.get q p = _
    rw [f2, hq, hp]
    obtain ⟨j, x, hj⟩ := hcol t k J ht hJ
    have hcs' := c2 j k x hj
    rw [hcs] at hcs'
    have hle1 : cs.start ≤ cs.stop := by
      cases hcs'; exact pre_le_succ _ _
    have hle2 : cs.stop ≤ H0.cols := by
      rw [g7]
      show _ ≤ P1.sizeState
      cases hcs'
      rw [c1]; exact pre_le_sum _ _
    refine placeJacs_block hss g5 hdis ?_ t k J cs ht hJ hcs hle1 hle2 (by omega) hJc a c (by omega) hc
    rw [g6]; exact hsl
  · intro p hp
    show A.H.get q p = _
    obtain ⟨-, -, -, fr⟩ := placeJacs_frame g5
    rw [f2, fr, f3]
    · rfl
    · rintro ⟨t, k, J, cs, t1, t2, t3, t4, t5⟩
      exact hp t k J cs t1 t2 t3 ⟨t4, t5⟩

/-! ### C38 -/

/-- **C38.** The cost is the sum of the robust losses of the norms of the errors, over the residuals paired with
their losses (`totalCost`). -/
theorem C38_cost (P : Prob K S) (vars : List (K × S)) (L : Lin) (h : P.linearize vars = .ok L) :
    totalCost vars (P.residuals.zip P.losses) = .ok L.cost := linearize_cost h

/-- Sum over all positions, interval by interval. -/
theorem sum_pre (f : ℕ → ℝ) (l : List ℕ) : ∀ n, n ≤ l.length →
    ∑ q ∈ Finset.range (pre l n), f q = ∑ i ∈ Finset.range n, ∑ a ∈ Finset.range (l.getD i 0), f (pre l i + a) := by
  intro n
  induction n with
  | zero => intro _; simp [pre]
  | succ n ih =>
    intro hn
    rw [Finset.sum_range_succ, ← ih (by omega), pre_succ l n (by omega), Finset.sum_range_add]
    congr 2
    rw [List.getD_eq_getElem?_getD, List.getElem?_eq_getElem (by omega)]
    rfl

theorem sum_pre_all (f : ℕ → ℝ) (l : List ℕ) {N : ℕ} (h : N = l.sum) :
    ∑ q ∈ Finset.range N, f q = ∑ i ∈ Finset.range l.length, ∑ a ∈ Finset.range (l.getD i 0), f (pre l i + a) := by
  rw [h, ← pre_length]; exact sum_pre f l _ (le_refl _)

/-- One robustified residual: the derivative of `loss(‖e(t)‖)` is `weight(‖e‖) · e · e'`, also where `e = 0`. -/
theorem robust_deriv (ls : Loss) (hls : ∀ x, HasDerivAt ls.loss (ls.weight x * x) x) (n : ℕ) (e : ℝ → List ℝ)
    (hlen : ∀ t, (e t).length = n) (d : ℕ → ℝ)
    (he : ∀ a, a < n → HasDerivAt (fun t => (e t).getD a 0) (d a) 0) :
    HasDerivAt (fun t => ls.loss (listNorm (e t)))
      (ls.weight (listNorm (e 0)) * ∑ a ∈ Finset.range n, (e 0).getD a 0 * d a) 0 := by
  have hsum : ∀ l : List ℝ, (l.map fun x => x * x).sum = ∑ a ∈ Finset.range l.length, l.getD a 0 * l.getD a 0 := by
    intro l
    induction l with
    | nil => simp
    | cons x l ih =>
      rw [List.map_cons, List.sum_cons, List.length_cons, Finset.sum_range_succ', ih, add_comm]
      rfl
  have hnorm : ∀ t, listNorm (e t) = Real.sqrt (∑ a ∈ Finset.range n, (e t).getD a 0 * (e t).getD a 0) := by
    intro t; unfold listNorm; rw [hsum, hlen]
  have hg : HasDerivAt (fun t => ∑ a ∈ Finset.range n, (e t).getD a 0 * (e t).getD a 0)
      (∑ a ∈ Finset.range n, (d a * (e 0).getD a 0 + (e 0).getD a 0 * d a)) 0 :=
    HasDerivAt.fun_sum fun a ha => (he a (Finset.mem_range.1 ha)).mul (he a (Finset.mem_range.1 ha))
  by_cases h0 : (∑ a ∈ Finset.range n, (e 0).getD a 0 * (e 0).getD a 0) = 0
  · have hz : ∀ a, a < n → (e 0).getD a 0 = 0 := by
      intro a ha
      have := (Finset.sum_eq_zero_iff_of_nonneg (fun a _ => mul_self_nonneg _)).1 h0 a (Finset.mem_range.2 ha)
      exact mul_self_eq_zero.1 this
    have hn0 : listNorm (e 0) = 0 := by rw [hnorm, h0, Real.sqrt_zero]
    have hd0 : ∑ a ∈ Finset.range n, (e 0).getD a 0 * d a = 0 :=
      Finset.sum_eq_zero fun a ha => by rw [hz a (Finset.mem_range.1 ha), zero_mul]
    rw [hd0, mul_zero]
    have hO : (fun t : ℝ => listNorm (e t)) =O[nhds 0] fun t : ℝ => t := by
      have h1 : (fun t : ℝ => ∑ a ∈ Finset.range n, |(e t).getD a 0|) =O[nhds 0] fun t : ℝ => t := by
        refine Asymptotics.IsBigO.fun_sum (A := fun (a : ℕ) (t : ℝ) => |(e t).getD a 0|) (g := fun t : ℝ => t) fun a ha => ?_
        have := (he a (Finset.mem_range.1 ha)).differentiableAt.isBigO_sub
        simp only [hz a (Finset.mem_range.1 ha), sub_zero] at this
        exact this.abs_left
      have h2 : (fun t : ℝ => listNorm (e t)) =O[nhds 0] fun t : ℝ => ∑ a ∈ Finset.range n, |(e t).getD a 0| := by
       refine Asymptotics.IsBigO.of_bound 1 (Filter.Eventually.of_forall fun t => ?_)
       rw [one_mul, Real.norm_eq_abs, Real.norm_eq_abs, hnorm, abs_of_nonneg (Real.sqrt_nonneg _),
         abs_of_nonneg (Finset.sum_nonneg fun a _ => abs_nonneg _)]
       refine Real.sqrt_le_iff.2 ⟨Finset.sum_nonneg fun a _ => abs_nonneg _, ?_⟩
       have := Finset.sum_sq_le_sq_sum_of_nonneg (s := Finset.range n) (f := fun a => |(e t).getD a 0|)
         (fun a _ => abs_nonneg _)
       refine le_trans (le_of_eq ?_) this
       refine Finset.sum_congr rfl fun a _ => ?_
       rw [sq_abs, sq]
      exact h2.trans h1
    have hl : (fun x : ℝ => ls.loss x - ls.loss 0) =o[nhds 0] fun x : ℝ => x := by
      have := (hasDerivAt_iff_isLittleO.1 (hls 0))
      simpa using this
    have hc : Filter.Tendsto (fun t : ℝ => listNorm (e t)) (nhds 0) (nhds 0) :=
      hO.trans_tendsto Filter.tendsto_id
    have := (hl.comp_tendsto hc).trans_isBigO hO
    rw [hasDerivAt_iff_isLittleO]
    simpa [hn0, Function.comp_def] using this
  · have hs := hg.sqrt h0
    have hl := hls (listNorm (e 0))
    have hfun : (fun t => listNorm (e t)) = fun t => Real.sqrt (∑ a ∈ Finset.range n, (e t).getD a 0 * (e t).getD a 0) :=
      funext hnorm
    rw [← hfun] at hs
    have := hl.comp 0 hs
    refine HasDerivAt.congr_deriv (f := fun t => ls.loss (listNorm (e t))) this ?_
    rw [← hnorm 0]
    have hne : listNorm (e 0) ≠ 0 := by
      rw [hnorm]
      exact (Real.sqrt_pos.2 (lt_of_le_of_ne (Finset.sum_nonneg fun a _ => mul_self_nonneg _) (Ne.symm h0))).ne'
    have : ∑ a ∈ Finset.range n, (d a * (e 0).getD a 0 + (e 0).getD a 0 * d a) =
        2 * ∑ a ∈ Finset.range n, (e 0).getD a 0 * d a := by
      rw [Finset.mul_sum]
      exact Finset.sum_congr rfl fun a _ => by ring
    rw [this]
    field_simp

/-- The Jacobian of a residual with respect to key `k` (zero if it has none). -/
def jacOf (ks : List K) (js : List (Option DMat)) (k : K) (a c : ℕ) : ℝ :=
  match (ks.zip js).lookup k with
  | some (some J) => J.get a c
  | _ => 0

/-- Along `path` the residual's error `errs t` has `n` components, and its derivative at `t = 0` is the sum over the
free variables of (the Jacobian the residual returns for that variable) times (the direction `δ` of that variable). -/
structure JacCorrect (o : VarOps S) (P : Prob K S) (path : ℝ → List (K × S)) (δ : K → ℕ → ℝ) (r : Residual K S)
    (n : ℕ) (errs : ℝ → List ℝ) (jacs : List (Option DMat)) : Prop where
  nodup : r.keys.Nodup
  err : ∀ t, ∃ xs, lookupAll (path t) r.keys = .ok xs ∧ r.error xs = .ok (errs t)
  jac : ∃ xs, lookupAll (path 0) r.keys = .ok xs ∧
    r.jacobians xs (r.keys.map fun k => !(P.constKeys.contains k)) = .ok jacs
  len : ∀ t, (errs t).length = n
  constNone : ∀ (t : ℕ) (k : K) (J : DMat), r.keys[t]? = some k → k ∈ P.constKeys → jacs[t]? ≠ some (some J)
  shape : ∀ (t : ℕ) (k : K) (J : DMat) (x : S), r.keys[t]? = some k → jacs[t]? = some (some J) →
    (k, x) ∈ P.varsInit → J.rows = n ∧ J.cols = o.dof x
  deriv : ∀ a, a < n → HasDerivAt (fun t => (errs t).getD a 0)
    ((freeVars P.constKeys P.varsInit).map fun p =>
      ∑ c ∈ Finset.range (o.dof p.2), jacOf r.keys jacs p.1 a c * δ p.1 c).sum 0

theorem sum_map_range {α : Type} (f : α → ℝ) : ∀ l : List α,
    (l.map f).sum = ∑ j ∈ Finset.range l.length, (l[j]?).elim 0 f
  | [] => by simp
  | x :: l => by
    rw [List.map_cons, List.sum_cons, List.length_cons, Finset.sum_range_succ', sum_map_range f l, add_comm]
    rfl

theorem totalCost_sum {vars : List (K × S)} : ∀ {l : List (Residual K S × Loss)} {c : ℝ},
    totalCost vars l = .ok c → ∀ (E : ℕ → List ℝ) (W : ℕ → Loss),
    (∀ (i : ℕ) (r : Residual K S) (ls : Loss), l[i]? = some (r, ls) → W i = ls ∧
      ∃ xs, lookupAll vars r.keys = .ok xs ∧ r.error xs = .ok (E i)) →
    c = ∑ i ∈ Finset.range l.length, (W i).loss (listNorm (E i))
  | [], c, h, E, W, hE => by cases h; simp
  | (r, ls) :: l, c, h, E, W, hE => by
    unfold totalCost at h
    obtain ⟨xs, h1, h⟩ := bind_ok h
    obtain ⟨err, h2, h⟩ := bind_ok h
    obtain ⟨c', h3, h⟩ := bind_ok h
    cases h
    have ih := totalCost_sum h3 (fun i => E (i + 1)) (fun i => W (i + 1)) (fun i r' ls' hi => hE (i + 1) r' ls' (by
      simpa using hi))
    obtain ⟨w0, xs0, e1, e2⟩ := hE 0 r ls rfl
    rw [h1] at e1; cases e1
    rw [h2] at e2
    injection e2 with e2
    rw [List.length_cons, Finset.sum_range_succ', ← ih, w0, e2, add_comm]

theorem zip_lookup_at {α : Type} : ∀ {ks : List K} {js : List α} {t : ℕ} {k : K} {j : α}, ks.Nodup → ks[t]? = some k →
    js[t]? = some j → (ks.zip js).lookup k = some j
  | [], js, t, k, j, hn, h1, h2 => by simp at h1
  | q :: ks, [], t, k, j, hn, h1, h2 => by simp at h2
  | q :: ks, i :: js, 0, k, j, hn, h1, h2 => by
    simp only [List.getElem?_cons_zero, Option.some.injEq] at h1 h2
    subst h1 h2
    exact lookup_cons_self _ _ _
  | q :: ks, i :: js, t + 1, k, j, hn, h1, h2 => by
    simp only [List.getElem?_cons_succ] at h1 h2
    have hne : k ≠ q := by
      rintro rfl
      exact (List.nodup_cons.1 hn).1 (List.mem_of_getElem? h1)
    rw [List.zip_cons_cons, lookup_cons_ne _ _ hne]
    exact zip_lookup_at (List.nodup_cons.1 hn).2 h1 h2

theorem lookup_zip_at {α : Type} : ∀ {ks : List K} {js : List α} {k : K} {j : α},
    (ks.zip js).lookup k = some j → ∃ t : ℕ, ks[t]? = some k ∧ js[t]? = some j
  | [], js, k, j, h => by simp at h
  | q :: ks, [], k, j, h => by simp at h
  | q :: ks, i :: js, k, j, h => by
    rw [List.zip_cons_cons] at h
    by_cases e : k = q
    · subst e
      rw [lookup_cons_self] at h
      cases h
      exact ⟨0, rfl, rfl⟩
    · rw [lookup_cons_ne _ _ e] at h
      obtain ⟨t, h1, h2⟩ := lookup_zip_at h
      exact ⟨t + 1, by simpa using h1, by simpa using h2⟩

theorem cols_disjoint {o : VarOps S} {P P1 : Prob K S} {vars : List (K × S)} (hn : (P.varsInit.map Prod.fst).Nodup)
    (hc1 : P1.varSlices = (colSlices o P.constKeys P.varsInit 0 P.varSlices).1)
    (hv : vars.map Prod.fst = P.varsInit.map Prod.fst) {ks : List K} {xs : List S} {js : List (Option DMat)}
    (hxs : lookupAll vars ks = .ok xs)
    (hconst : ∀ (t : ℕ) (k : K) (J : DMat), ks[t]? = some k → k ∈ P.constKeys → js[t]? ≠ some (some J))
    {t : ℕ} {k' k : K} {J : DMat} {cs' cs : Slice} (h1 : ks[t]? = some k') (h2 : js[t]? = some (some J))
    (h3 : P1.varSlices.lookup k' = some cs') {j : ℕ} {x : S}
    (hj : (freeVars P.constKeys P.varsInit)[j]? = some (k, x)) (hcs : P1.varSlices.lookup k = some cs)
    (hne : k' ≠ k) (q : ℕ) (hq : cs.start ≤ q ∧ q < cs.stop) : ¬ (cs'.start ≤ q ∧ q < cs'.stop) := by
  obtain ⟨-, c2⟩ := colSlices_spec (o := o) (const := P.constKeys) P.varsInit 0 P.varSlices hn
  rw [← hc1] at c2
  have hk : k' ∉ P.constKeys := fun hk => hconst t k' J h1 hk h2
  have hmem : k' ∈ P.varsInit.map Prod.fst := by
    rw [← hv]; exact lookupAll_mem hxs k' (List.mem_of_getElem? h1)
  obtain ⟨⟨k2, x'⟩, hp, rfl⟩ := List.mem_map.1 hmem
  have : (k2, x') ∈ freeVars P.constKeys P.varsInit := by
    unfold freeVars
    rw [List.mem_filter]
    exact ⟨hp, by simpa using hk⟩
  obtain ⟨j', hj1, hj2⟩ := List.getElem_of_mem this
  have hj' : (freeVars P.constKeys P.varsInit)[j']? = some (k2, x') := by rw [List.getElem?_eq_getElem hj1, hj2]
  have hjj : j ≠ j' := by
    rintro rfl
    rw [hj] at hj'; cases hj'; exact hne rfl
  have e1 := c2 j k x hj
  have e2 := c2 j' k2 x' hj'
  simp only [Nat.zero_add] at e1 e2
  rw [hcs] at e1
  rw [show (k2, x').1 = k2 from rfl] at h3
  rw [h3] at e2
  cases e1; cases e2
  rintro ⟨d3, d4⟩
  obtain ⟨d1, d2⟩ := hq
  simp only at d1 d2 d3 d4
  rcases Nat.lt_or_gt_of_ne hjj with hlt | hlt
  · have := pre_mono (freeDofs o P.constKeys P.varsInit) (show j + 1 ≤ j' by omega); omega
  · have := pre_mono (freeDofs o P.constKeys P.varsInit) (show j' + 1 ≤ j by omega); omega

/-- A row of `H δ`: `sqrt(weight)` times the sum over the free variables of Jacobian times direction. -/
theorem row_direction (o : VarOps S) (P P1 : Prob K S) (h : P.started o = .ok P1)
    (hn : (P.varsInit.map Prod.fst).Nodup)
    (vars : List (K × S)) (hv : vars.map Prod.fst = P.varsInit.map Prod.fst) (L : Lin)
    (hL : P1.linearize vars = .ok L) (δ : K → ℕ → ℝ) (δv : Vec L.n)
    (hδ : ∀ (k : K) (x : S) (s : Slice) (c : ℕ) (p : Fin L.n), (k, x) ∈ freeVars P.constKeys P.varsInit →
      P1.varSlices.lookup k = some s → c < o.dof x → (p : ℕ) = s.start + c → δv p = δ k c)
    (i : ℕ) (r : Residual K S) (ls : Loss) (hi : (P.residuals.zip P.losses)[i]? = some (r, ls))
    (s : Slice) (hs : P1.resSlices[i]? = some s)
    (xs : List S) (err : List ℝ) (jacs : List (Option DMat)) (x1 : lookupAll vars r.keys = .ok xs)
    (herr : r.error xs = .ok err)
    (hjac : r.jacobians xs (r.keys.map fun k => !(P.constKeys.contains k)) = .ok jacs)
    (hsize : err.length = s.stop - s.start) (hkeys : r.keys.Nodup)
    (hconst : ∀ (t : ℕ) (k : K) (J : DMat), r.keys[t]? = some k → k ∈ P.constKeys → jacs[t]? ≠ some (some J))
    (hshape : ∀ (t : ℕ) (k : K) (J : DMat) (x : S), r.keys[t]? = some k → jacs[t]? = some (some J) →
      (k, x) ∈ P.varsInit → J.rows = err.length ∧ J.cols = o.dof x)
    (q : Fin L.m) (a : ℕ) (hqa : (q : ℕ) = s.start + a) (ha : a < err.length) :
    L.e q = Real.sqrt (ls.weight (listNorm err)) * err.getD a 0 ∧
    (L.H *ᵥ δv) q = Real.sqrt (ls.weight (listNorm err)) *
      ((freeVars P.constKeys P.varsInit).map fun p =>
        ∑ c ∈ Finset.range (o.dof p.2), jacOf r.keys jacs p.1 a c * δ p.1 c).sum := by
  obtain ⟨-, hc1, hc2⟩ := started_slices h
  obtain ⟨c1, c2⟩ := colSlices_spec (o := o) (const := P.constKeys) P.varsInit 0 P.varSlices hn
  simp only [Nat.zero_add] at c1 c2
  rw [← hc2] at c1
  rw [← hc1] at c2
  obtain ⟨hm, hnn⟩ := linearize_shape hL
  obtain ⟨k1, k2, k3⟩ := C37_block o P P1 h hn vars hv L hL i r ls hi s hs xs err jacs x1 herr hjac hsize hkeys
    hconst q a hqa ha
  refine ⟨k1, ?_⟩
  show ∑ p, L.H q p * δv p = _
  rw [Finset.sum_fin_eq_sum_range, sum_pre_all _ _ (hnn.trans c1)]
  show _ = Real.sqrt (ls.weight (listNorm err)) * (List.map _ _).sum
  rw [sum_map_range, Finset.mul_sum]
  have hfl : (freeDofs o P.constKeys P.varsInit).length = (freeVars P.constKeys P.varsInit).length := by
    simp [freeDofs]
  rw [hfl]
  refine Finset.sum_congr rfl fun j hj => ?_
  rw [Finset.mem_range] at hj
  obtain ⟨⟨k, x⟩, hjx⟩ : ∃ y, (freeVars P.constKeys P.varsInit)[j]? = some y := ⟨_, List.getElem?_eq_getElem hj⟩
  rw [hjx]
  show _ = _ * ∑ c ∈ Finset.range (o.dof x), _
  have hdof : (freeDofs o P.constKeys P.varsInit).getD j 0 = o.dof x := by
    unfold freeDofs
    rw [List.getD_eq_getElem?_getD, List.getElem?_map, hjx]
    rfl
  have hmem : (k, x) ∈ freeVars P.constKeys P.varsInit := List.mem_of_getElem? hjx
  rw [hdof, Finset.mul_sum]
  refine Finset.sum_congr rfl fun c hc => ?_
  rw [Finset.mem_range] at hc
  have hjl : j < (freeDofs o P.constKeys P.varsInit).length := by omega
  have hsucc := pre_succ (freeDofs o P.constKeys P.varsInit) j hjl
  have hget : (freeDofs o P.constKeys P.varsInit)[j] = o.dof x := by
    rw [← hdof, List.getD_eq_getElem?_getD, List.getElem?_eq_getElem hjl]
    rfl
  rw [hget] at hsucc
  have hp : pre (freeDofs o P.constKeys P.varsInit) j + c < L.n := by
    rw [hnn, c1]
    have := pre_le_sum (freeDofs o P.constKeys P.varsInit) (j + 1)
    omega
  rw [dif_pos hp]
  have hsk := c2 j k x hjx
  rw [hδ k x _ c ⟨_, hp⟩ hmem hsk hc rfl, ← mul_assoc]
  congr 1
  -- the entry of `H`
  unfold jacOf
  cases hlk : (r.keys.zip jacs).lookup k with
  | none =>
    show _ = _ * (0 : ℝ)
    rw [mul_zero]
    refine k3 _ ?_
    intro t k' J' cs' t1 t2 t3 hin
    have hne : k' ≠ k := by
      rintro rfl
      rw [zip_lookup_at hkeys t1 t2] at hlk
      cases hlk
    exact absurd hin (cols_disjoint hn hc1 hv x1 hconst t1 t2 t3 hjx hsk hne _ ⟨by simp, by simp only; omega⟩)
  | some oj =>
    obtain ⟨t, t1, t2⟩ := lookup_zip_at hlk
    cases oj with
    | none =>
      show _ = _ * (0 : ℝ)
      rw [mul_zero]
      refine k3 _ ?_
      intro t' k' J' cs' t1' t2' t3' hin
      have hne : k' ≠ k := by
        rintro rfl
        rw [zip_lookup_at hkeys t1' t2'] at hlk
        cases hlk
      exact absurd hin (cols_disjoint hn hc1 hv x1 hconst t1' t2' t3' hjx hsk hne _
        ⟨by simp, by simp only; omega⟩)
    | some J' =>
      have hxv : (k, x) ∈ P.varsInit := List.mem_of_mem_filter hmem
      obtain ⟨sh1, sh2⟩ := hshape t k J' x t1 t2 hxv
      exact k2 t k J' _ t1 t2 hsk (sh1) (by rw [sh2]; simp only; omega) ⟨_, hp⟩ c rfl (by
        rw [sh2]; exact hc)

/-- **C38.** `Hᵀ e`, which the solvers use and test for convergence, is the gradient of the total robust cost: along
any path of the variables whose residuals move as their Jacobians say, the derivative of the total cost is
`(Hᵀ e) · δ`. -/
theorem C38_gradient (o : VarOps S) (P P1 : Prob K S) (h : P.started o = .ok P1)
    (hn : (P.varsInit.map Prod.fst).Nodup) (hlosses : P.losses.length = P.residuals.length)
    (path : ℝ → List (K × S)) (hv : (path 0).map Prod.fst = P.varsInit.map Prod.fst)
    (L : Lin) (hL : P1.linearize (path 0) = .ok L) (δ : K → ℕ → ℝ) (δv : Vec L.n)
    (hδ : ∀ (k : K) (x : S) (s : Slice) (c : ℕ) (p : Fin L.n), (k, x) ∈ freeVars P.constKeys P.varsInit →
      P1.varSlices.lookup k = some s → c < o.dof x → (p : ℕ) = s.start + c → δv p = δ k c)
    (hres : ∀ (i : ℕ) (r : Residual K S) (ls : Loss) (s : Slice), (P.residuals.zip P.losses)[i]? = some (r, ls) →
      P1.resSlices[i]? = some s → (∀ x, HasDerivAt ls.loss (ls.weight x * x) x) ∧ (∀ x, 0 ≤ ls.weight x) ∧
      ∃ (errs : ℝ → List ℝ) (jacs : List (Option DMat)),
        JacCorrect o P path δ r (s.stop - s.start) errs jacs)
    (cost : ℝ → ℝ) (hcost : ∀ t, totalCost (path t) (P.residuals.zip P.losses) = .ok (cost t)) :
    HasDerivAt cost (L.b ⬝ᵥ δv) 0 := by
  obtain ⟨hr, hc1, hc2⟩ := started_slices h
  obtain ⟨sizes, ⟨hl, hs⟩, hlen, htot, hsl⟩ := rowSlices_spec hr
  simp only [Nat.zero_add] at htot hsl
  obtain ⟨c1, c2⟩ := colSlices_spec (o := o) (const := P.constKeys) P.varsInit 0 P.varSlices hn
  simp only [Nat.zero_add] at c1 c2
  rw [← hc2] at c1
  rw [← hc1] at c2
  obtain ⟨hm, hnn⟩ := linearize_shape hL
  have hzlen : (P.residuals.zip P.losses).length = sizes.length := by
    rw [List.length_zip]; omega
  -- one bundle per residual
  have hb : ∀ i : ℕ, ∃ (r : Residual K S) (ls : Loss) (errs : ℝ → List ℝ) (jacs : List (Option DMat)),
      i < sizes.length → (P.residuals.zip P.losses)[i]? = some (r, ls) ∧
        (∀ x, HasDerivAt ls.loss (ls.weight x * x) x) ∧ (∀ x, 0 ≤ ls.weight x) ∧
        JacCorrect o P path δ r (sizes.getD i 0) errs jacs := by
    intro i
    by_cases hi : i < sizes.length
    · have hz : i < (P.residuals.zip P.losses).length := by omega
      obtain ⟨⟨r, ls⟩, hx⟩ : ∃ x, (P.residuals.zip P.losses)[i]? = some x := ⟨_, List.getElem?_eq_getElem hz⟩
      obtain ⟨q1, q2, errs, jacs, q3⟩ := hres i r ls _ hx (hsl i (by omega))
      refine ⟨r, ls, errs, jacs, fun _ => ⟨hx, q1, q2, ?_⟩⟩
      have : sizes.getD i 0 = pre sizes (i + 1) - pre sizes i := by
        rw [pre_succ sizes i hi, List.getD_eq_getElem?_getD, List.getElem?_eq_getElem hi, Nat.add_sub_cancel_left]
        rfl
      rw [this]; exact q3
    · exact ⟨⟨[], fun _ => .error .nan, fun _ _ => .error .nan⟩, l2Loss, fun _ => [], [], fun hc => absurd hc hi⟩
  choose R W E J hB using hb
  -- the cost as a sum
  have hsum : ∀ t, cost t = ∑ i ∈ Finset.range sizes.length, (W i).loss (listNorm (E i t)) := by
    intro t
    have := totalCost_sum (hcost t) (fun i => E i t) W (by
      intro i r ls hi
      have hi' : i < sizes.length := by rw [← hzlen]; exact (List.getElem?_eq_some_iff.1 hi).1
      obtain ⟨b1, -, -, b4⟩ := hB i hi'
      rw [hi] at b1
      cases b1
      exact ⟨rfl, b4.err t⟩)
    rw [this, hzlen]
  let D : ℕ → ℕ → ℝ := fun i a => ((freeVars P.constKeys P.varsInit).map fun p =>
      ∑ c ∈ Finset.range (o.dof p.2), jacOf (R i).keys (J i) p.1 a c * δ p.1 c).sum
  have hder : HasDerivAt cost (∑ i ∈ Finset.range sizes.length, (W i).weight (listNorm (E i 0)) *
      ∑ a ∈ Finset.range (sizes.getD i 0), (E i 0).getD a 0 * D i a) 0 := by
    rw [show cost = fun t => ∑ i ∈ Finset.range sizes.length, (W i).loss (listNorm (E i t)) from funext hsum]
    refine HasDerivAt.fun_sum fun i hi => ?_
    obtain ⟨-, b2, -, b4⟩ := hB i (Finset.mem_range.1 hi)
    exact robust_deriv (W i) b2 _ (E i) b4.len (D i) b4.deriv
  refine hder.congr_deriv ?_
  -- the stacked side
  have hb1 : L.b ⬝ᵥ δv = L.e ⬝ᵥ (L.H *ᵥ δv) := by
    unfold Lin.b
    rw [Matrix.mulVec_transpose, ← Matrix.dotProduct_mulVec]
  rw [hb1]
  show _ = ∑ q, L.e q * (L.H *ᵥ δv) q
  rw [Finset.sum_fin_eq_sum_range, sum_pre_all _ sizes (hm.trans htot)]
  refine Finset.sum_congr rfl fun i hi => ?_
  rw [Finset.mem_range] at hi
  obtain ⟨b1, b2, b3, b4⟩ := hB i hi
  rw [Finset.mul_sum]
  refine Finset.sum_congr rfl fun a ha => ?_
  rw [Finset.mem_range] at ha
  have hsi : sizes.getD i 0 = pre sizes (i + 1) - pre sizes i := by
    rw [pre_succ sizes i hi, List.getD_eq_getElem?_getD, List.getElem?_eq_getElem hi, Nat.add_sub_cancel_left]
    rfl
  have hq : pre sizes i + a < L.m := by
    rw [hm, htot]
    have := pre_le_sum sizes (i + 1)
    omega
  rw [dif_pos hq]
  obtain ⟨xs, x1, x2⟩ := b4.err 0
  obtain ⟨xs', x1', x3⟩ := b4.jac
  rw [x1] at x1'; cases x1'
  obtain ⟨k1, hrow⟩ := row_direction o P P1 h hn (path 0) hv L hL δ δv hδ i (R i) (W i) b1 _ (hsl i (by omega)) xs
    (E i 0) (J i) x1 x2 x3 (by rw [b4.len, hsi]) b4.nodup b4.constNone
    (fun t k J x t1 t2 t3 => by rw [b4.len]; exact b4.shape t k J x t1 t2 t3) ⟨_, hq⟩ a rfl (by rw [b4.len]; exact ha)
  rw [hrow, k1]
  have hw := Real.mul_self_sqrt (b3 (listNorm (E i 0)))
  linear_combination -(((E i 0).getD a 0) * D i a) * hw

end Verif
