import Verif.Model.Plot
import Verif.Lemmas.RunFilter
import Verif.Lemmas.Iekf

/-!
C114: what the plots over time show.
-/

set_option linter.unusedSectionVars false
set_option linter.unusedVariables false

namespace Verif

open Matrix

/-! ### `plot_error` -/

/-- **C114, the grid of `plot_error`.** For two or more components the new axes are enough for all of them, in at most three rows,
with fewer than three left over. -/
theorem C114_error_grid (d : ℕ) : (errorGrid d).1 = min d 3 ∧ d ≤ (errorGrid d).1 * (errorGrid d).2 ∧
    (errorGrid d).1 * (errorGrid d).2 < d + 3 := by
  unfold errorGrid
  by_cases h : d < 3
  · rw [if_pos h]
    interval_cases d <;> simp
  · rw [if_neg h]
    refine ⟨by simp only; omega, by simp only; omega, by simp only; omega⟩

/-- **C114, `plot_error`.** With new axes and two or more components, or with given axes that are enough, `plot_error` draws each component
on its own axes (in the order of the components): the band between plus and minus three standard deviations, unless switched off, and the
error; the other axes are left alone. -/
theorem C114_error {d : ℕ} (rows : List (ErrRow d)) (hr : rows ≠ []) (axs : AxArg) (bounds : Bool) (label : Option PlotLabel) (k : ℕ)
    (hax : (axs = .new ∧ 2 ≤ d ∧ k = (errorGrid d).1 * (errorGrid d).2) ∨ (axs = .array k ∧ k ≠ 0 ∧ d ≤ k)) :
    ∃ panels, plotError rows axs bounds label = .ok panels ∧ panels.length = k ∧
      (∀ i : Fin d, panels[i.val]? = some ((if bounds then
          [Draw.band (rows.map fun r => r.stamp) (rows.map fun r => some (r.threeSigma i)) (rows.map fun r => some (-r.threeSigma i))] else []) ++
        [Draw.line (rows.map fun r => r.stamp) (rows.map fun r => some (r.error i)) label])) ∧
      ∀ j : ℕ, d ≤ j → j < k → panels[j]? = some [] := by
  have hk : d ≤ k := by
    rcases hax with ⟨_, _, rfl⟩ | ⟨_, _, h⟩
    · exact (C114_error_grid d).2.1
    · exact h
  have he : rows.isEmpty = false := by cases rows <;> simp_all
  refine ⟨(List.finRange d).map (errorPanel rows bounds label) ++ List.replicate (k - d) [], ?_, ?_, ?_, ?_⟩
  · unfold plotError
    rw [he]
    rcases hax with ⟨rfl, h2, rfl⟩ | ⟨rfl, h0, h2⟩
    · simp only [Bool.false_eq_true, if_false, if_neg (show ¬ d = 0 by omega), if_neg (show ¬ d = 1 by omega)]
      show (if _ then _ else _ : Except Err (List (List Draw))) = _
      simp only [bind, Except.bind]
      rw [if_neg (by omega)]
      rfl
    · simp only [Bool.false_eq_true, if_false, if_neg h0]
      simp only [bind, Except.bind]
      rw [if_neg (by omega)]
      rfl
  · simp
    omega
  · intro i
    rw [List.getElem?_append_left (by simp)]
    simp [errorPanel]
  · intro j h1 h2
    rw [List.getElem?_append_right (by simpa using h1), List.getElem?_replicate, if_pos]
    simp only [List.length_map, List.length_finRange]
    omega

/-- **C114, `plot_error` raises.** For a single component without given axes it raises `AttributeError` (so does it for a given `Axes` that
is not in an array), for given axes that are too few `IndexError`, and for no results `IndexError`. -/
theorem C114_error_raises {d : ℕ} (rows : List (ErrRow d)) (bounds : Bool) (label : Option PlotLabel) :
    (rows ≠ [] → d = 1 → plotError rows .new bounds label = .error .attributeError) ∧
    (rows ≠ [] → plotError rows .one bounds label = .error .attributeError) ∧
    (∀ k, rows ≠ [] → k < d → plotError rows (.array k) bounds label = .error .indexError) ∧
    ∀ axs, plotError ([] : List (ErrRow d)) axs bounds label = .error .indexError := by
  refine ⟨?_, ?_, ?_, fun axs => rfl⟩
  · intro h h1
    have he : rows.isEmpty = false := by cases rows <;> simp_all
    unfold plotError
    rw [he]
    simp only [Bool.false_eq_true, if_false, h1]
    rfl
  · intro h
    have he : rows.isEmpty = false := by cases rows <;> simp_all
    unfold plotError
    rw [he]
    rfl
  · intro k h h1
    have he : rows.isEmpty = false := by cases rows <;> simp_all
    unfold plotError
    rw [he]
    simp only [Bool.false_eq_true, if_false]
    by_cases hk : k = 0
    · rw [if_pos hk]; rfl
    · rw [if_neg hk]
      simp only [bind, Except.bind]
      rw [if_pos h1]

/-! ### `plot_nees` -/

/-- **C114, `plot_nees`.** With a confidence interval between 0 and 1 four lines are added, all divided by the degrees of freedom if
`normalize` is set: the NEES, its expected value (the degrees of freedom) and the two ends of the interval, which holds a `χ²` variable
with probability `c`, half of the rest lying on each side. Without an interval (`None`, but also 0) only the first is added: the expected
value is not shown. Any other number is a `ValueError`, raised after two of the lines have been added. -/
theorem C114_nees (ppf : ℝ → ℝ → ℝ) (trials : ℕ) (drawn : List Draw) (rows : List NeesRow) (label : Option PlotLabel) (normalize : Bool) :
    (∀ c : ℝ, 0 < c → c < 1 → plotNees ppf trials drawn rows label (some c) normalize = (drawn ++ [
        Draw.line (rows.map fun r => r.stamp) (rows.map fun r => some (r.nees / if normalize then r.dof else 1)) label,
        Draw.line (rows.map fun r => r.stamp) (rows.map fun r => some (r.dof / if normalize then r.dof else 1))
          (if PlotLabel.expected ∈ legendLabels drawn then none else some .expected),
        Draw.line (rows.map fun r => r.stamp) (rows.map fun r => some (ppf (1 - (1 - c) / 2) (trials * r.dof) / trials / if normalize then r.dof else 1))
          (if PlotLabel.conf ⌊c * 100⌋ ∈ legendLabels drawn then none else some (.conf ⌊c * 100⌋)),
        Draw.line (rows.map fun r => r.stamp) (rows.map fun r => some (ppf ((1 - c) / 2) (trials * r.dof) / trials / if normalize then r.dof else 1)) none], none)) ∧
    (∀ conf, conf = none ∨ conf = some 0 → plotNees ppf trials drawn rows label conf normalize = (drawn ++ [
        Draw.line (rows.map fun r => r.stamp) (rows.map fun r => some (r.nees / if normalize then r.dof else 1)) label], none)) ∧
    (∀ c : ℝ, c < 0 ∨ 1 ≤ c → plotNees ppf trials drawn rows label (some c) normalize = (drawn ++ [
        Draw.line (rows.map fun r => r.stamp) (rows.map fun r => some (r.nees / if normalize then r.dof else 1)) label,
        Draw.line (rows.map fun r => r.stamp) (rows.map fun r => some (r.dof / if normalize then r.dof else 1))
          (if PlotLabel.expected ∈ legendLabels drawn then none else some .expected)], some .valueError)) := by
  have hz : ∀ (f : ℝ → ℝ) (s : NeesRow → ℝ), List.zipWith (fun b r => some (b / s r)) ((rows.map NeesRow.dof).map f) rows =
      rows.map fun r => some (f r.dof / s r) := by
    intro f s
    induction rows with
    | nil => rfl
    | cons a l ih => simp only [List.map_cons, List.zipWith_cons_cons, ih]
  refine ⟨?_, ?_, ?_⟩
  · intro c h0 h1
    have hc : ¬ (c ≥ 1 ∨ c ≤ 0) := by rintro (h | h) <;> linarith
    unfold plotNees neesUpperBound neesLowerBound
    simp only [if_neg h0.ne', if_neg hc, hz, List.append_assoc, List.cons_append, List.nil_append, if_true]
    simp only [show c + (1 - c) / 2 = 1 - (1 - c) / 2 by ring]
  · rintro conf (rfl | rfl)
    · rfl
    · unfold plotNees
      simp only [if_true]
  · intro c hc
    have h0 : c ≠ 0 := by rcases hc with h | h <;> intro h' <;> linarith
    have h1 : c ≥ 1 ∨ c ≤ 0 := by rcases hc with h | h; exacts [.inr h.le, .inl h]
    unfold plotNees neesUpperBound
    simp only [if_neg h0, if_pos h1, List.append_assoc, List.cons_append, List.nil_append]

/-- A call of `plot_nees` on given axes. -/
structure NeesCall where
  rows : List NeesRow
  label : Option String
  conf : Option ℝ
  normalize : Bool

/-- A history of calls on one axes, each made whatever the ones before raised. -/
noncomputable def neesCalls (ppf : ℝ → ℝ → ℝ) (trials : ℕ) : List NeesCall → List Draw
  | [] => []
  | c :: cs => (plotNees ppf trials (neesCalls ppf trials cs) c.rows (c.label.map PlotLabel.user) c.conf c.normalize).1

theorem legend_append (a b : List Draw) : legendLabels (a ++ b) = legendLabels a ++ legendLabels b := by
  unfold legendLabels
  rw [List.filterMap_append]

/-- The labels one call adds. -/
theorem plotNees_labels (ppf : ℝ → ℝ → ℝ) (trials : ℕ) (drawn : List Draw) (rows : List NeesRow) (label : Option PlotLabel)
    (conf : Option ℝ) (normalize : Bool) :
    ∃ add : List PlotLabel, legendLabels (plotNees ppf trials drawn rows label conf normalize).1 = legendLabels drawn ++ (label.toList ++ add) ∧
      add.Nodup ∧ (∀ l ∈ add, l ∉ legendLabels drawn) ∧ ∀ l ∈ add, l = .expected ∨ ∃ p, l = .conf p := by
  classical
  have key : ∀ (st : List ℝ) (y : List (Option ℝ)) (l : Option PlotLabel), legendLabels [Draw.line st y l] = l.toList := by
    intro st y l
    cases l <;> rfl
  have e1 : ∀ l ∈ (if PlotLabel.expected ∈ legendLabels drawn then none else some PlotLabel.expected : Option PlotLabel).toList,
      l ∉ legendLabels drawn ∧ l = .expected := by
    intro l hl
    split at hl
    · simp at hl
    · rename_i h
      simp at hl
      subst hl
      exact ⟨h, rfl⟩
  have e2 : ∀ p : ℤ, ∀ l ∈ (if PlotLabel.conf p ∈ legendLabels drawn then none else some (PlotLabel.conf p) : Option PlotLabel).toList,
      l ∉ legendLabels drawn ∧ l = .conf p := by
    intro p l hl
    split at hl
    · simp at hl
    · rename_i h
      simp at hl
      subst hl
      exact ⟨h, rfl⟩
  have nd : ∀ o : Option PlotLabel, o.toList.Nodup := by
    intro o
    cases o <;> simp
  unfold plotNees
  simp only
  cases conf with
  | none =>
    refine ⟨[], ?_, by simp, by simp, by simp⟩
    simp only [legend_append, key, List.append_nil]
  | some c =>
    simp only
    split
    · refine ⟨[], ?_, by simp, by simp, by simp⟩
      simp only [legend_append, key, List.append_nil]
    · split
      · refine ⟨_, ?_, nd _, fun l hl => (e1 l hl).1, fun l hl => .inl (e1 l hl).2⟩
        simp only [legend_append, key, List.append_assoc]
      · have hdis : ((if PlotLabel.expected ∈ legendLabels drawn then none else some PlotLabel.expected : Option PlotLabel).toList ++
            (if PlotLabel.conf ⌊c * 100⌋ ∈ legendLabels drawn then none else some (PlotLabel.conf ⌊c * 100⌋) : Option PlotLabel).toList).Nodup := by
          refine List.Nodup.append (nd _) (nd _) ?_
          intro l h1 h2
          have := (e1 l h1).2.symm.trans (e2 _ l h2).2
          cases this
        have hfresh : ∀ l ∈ ((if PlotLabel.expected ∈ legendLabels drawn then none else some PlotLabel.expected : Option PlotLabel).toList ++
            (if PlotLabel.conf ⌊c * 100⌋ ∈ legendLabels drawn then none else some (PlotLabel.conf ⌊c * 100⌋) : Option PlotLabel).toList),
            l ∉ legendLabels drawn ∧ (l = .expected ∨ ∃ p, l = .conf p) := by
          intro l hl
          rcases List.mem_append.mp hl with h | h
          · exact ⟨(e1 l h).1, .inl (e1 l h).2⟩
          · exact ⟨(e2 _ l h).1, .inr ⟨_, (e2 _ l h).2⟩⟩
        split
        · refine ⟨_, ?_, hdis, fun l hl => (hfresh l hl).1, fun l hl => (hfresh l hl).2⟩
          simp only [legend_append, key, List.append_assoc]
        · refine ⟨_, ?_, hdis, fun l hl => (hfresh l hl).1, fun l hl => (hfresh l hl).2⟩
          simp only [legend_append, key, List.append_assoc, Option.toList_none, List.append_nil]

/-- **C114, the legend of `plot_nees`.** However often `plot_nees` is called on the same axes, with whatever results, labels and
intervals, the legend has at most one entry for the expected value and at most one for each percentage. (The percentage is rounded
down: intervals that differ by less than one percent may share their entry.) -/
theorem C114_nees_legend (ppf : ℝ → ℝ → ℝ) (trials : ℕ) (cs : List NeesCall) :
    (legendLabels (neesCalls ppf trials cs)).count .expected ≤ 1 ∧
    ∀ p, (legendLabels (neesCalls ppf trials cs)).count (.conf p) ≤ 1 := by
  have main : ∀ l : PlotLabel, (∀ s, l ≠ .user s) → (legendLabels (neesCalls ppf trials cs)).count l ≤ 1 := by
    intro l hl
    induction cs with
    | nil => simp [neesCalls, legendLabels]
    | cons c cs ih =>
      obtain ⟨add, h1, h2, h3, h4⟩ := plotNees_labels ppf trials (neesCalls ppf trials cs) c.rows (c.label.map PlotLabel.user) c.conf c.normalize
      show (legendLabels (plotNees ppf trials (neesCalls ppf trials cs) c.rows _ c.conf c.normalize).1).count l ≤ 1
      rw [h1, List.count_append, List.count_append]
      have hu : (c.label.map PlotLabel.user).toList.count l = 0 := by
        rw [List.count_eq_zero]
        cases c.label with
        | none => simp
        | some s => simpa using hl s
      rw [hu, zero_add]
      by_cases hm : l ∈ add
      · have : (legendLabels (neesCalls ppf trials cs)).count l = 0 := List.count_eq_zero.mpr (h3 l hm)
        have := List.nodup_iff_count_le_one.mp h2 l
        omega
      · have : add.count l = 0 := List.count_eq_zero.mpr hm
        omega
  exact ⟨main _ (by intro s h; cases h), fun p => main _ (by intro s h; cases h)⟩

/-! ### `plot_meas` -/

theorem mids_length (xs : List ℝ) : (List.zipWith (fun b a : ℝ => b / 2 + a / 2) xs.tail xs).length = xs.length - 1 := by
  simp

/-- The element of a sorted list that the midpoints lead to is the nearest one, the first of several at the same distance. -/
theorem nearestIdx_spec : ∀ (xs : List ℝ) (t : ℝ), xs ≠ [] → xs.Pairwise (· ≤ ·) →
    ∃ x : ℝ, xs[nearestIdx xs t]? = some x ∧ ∀ z ∈ xs, |x - t| ≤ |z - t| ∧ (|x - t| = |z - t| → x ≤ z)
  | [], t, h, _ => absurd rfl h
  | [x], t, _, _ => ⟨x, by simp [nearestIdx], by simp⟩
  | x :: x' :: xs, t, _, hs => by
    classical
    have hxx : x ≤ x' := (List.pairwise_cons.mp hs).1 x' (by simp)
    have hs' := (List.pairwise_cons.mp hs).2
    by_cases hm : x' / 2 + x / 2 < t
    · have e : nearestIdx (x :: x' :: xs) t = nearestIdx (x' :: xs) t + 1 := by
        unfold nearestIdx
        simp only [List.tail_cons, List.zipWith_cons_cons]
        rw [List.filter_cons_of_pos (by simpa using hm)]
        simp
      obtain ⟨y, h1, h2⟩ := nearestIdx_spec (x' :: xs) t (by simp) hs'
      refine ⟨y, by rw [e]; simpa using h1, ?_⟩
      intro z hz
      rcases List.mem_cons.mp hz with rfl | hz
      · have h3 := (h2 x' (by simp)).1
        have h4 : |x' - t| < |z - t| ∨ (z = x') := by
          rcases hxx.lt_or_eq with h | h
          · left
            rw [abs_lt]
            have : z < t := by linarith
            rw [abs_of_neg (show z - t < 0 by linarith)]
            constructor <;> linarith
          · right; exact h
        rcases h4 with h4 | rfl
        · exact ⟨by linarith, fun h => by linarith⟩
        · exact h2 z (by simp)
      · exact h2 z hz
    · have hm' : t ≤ x' / 2 + x / 2 := not_lt.mp hm
      have e : nearestIdx (x :: x' :: xs) t = 0 := by
        unfold nearestIdx
        rw [List.length_eq_zero_iff, List.filter_eq_nil_iff]
        intro m hmem
        simp only [decide_eq_true_eq, not_lt]
        obtain ⟨k, hk, rfl⟩ := List.mem_iff_getElem.mp hmem
        rw [List.getElem_zipWith]
        simp only [List.length_zipWith, List.length_tail, List.length_cons] at hk
        have g1 : x' ≤ (x :: x' :: xs).tail[k]'(by simp; omega) := by
          simp only [List.tail_cons]
          rcases k with _ | k
          · simp
          · exact (List.pairwise_cons.mp hs').1 _ (List.getElem_mem _)
        have g2 : x ≤ (x :: x' :: xs)[k]'(by simp; omega) := by
          rcases k with _ | k
          · simp
          · exact (List.pairwise_cons.mp hs).1 _ (List.getElem_mem _)
        linarith
      refine ⟨x, by rw [e]; rfl, ?_⟩
      intro z hz
      rcases List.mem_cons.mp hz with rfl | hz
      · exact ⟨le_rfl, fun _ => le_rfl⟩
      · have hz' : x' ≤ z := by
          rcases List.mem_cons.mp hz with rfl | hz
          · exact le_rfl
          · exact (List.pairwise_cons.mp hs').1 z hz
        refine ⟨?_, fun _ => hxx.trans hz'⟩
        rw [abs_le]
        have : t ≤ z := by linarith
        rw [abs_of_nonneg (show 0 ≤ z - t by linarith)]
        constructor <;> linarith

variable {S : Type}

/-- **C114, the truth in `plot_meas`.** The state a measurement is compared with is one of the given states, in whatever order they are
given: one whose stamp is nearest to that of the measurement, and among two nearest stamps the earlier. There is no interpolation, and
no limit on how far away it is. -/
theorem C114_nearest (states : List (S × ℝ)) (h : states ≠ []) (t : ℝ) :
    ∃ p ∈ states, nearestState states t = some p.1 ∧ ∀ q ∈ states, |p.2 - t| ≤ |q.2 - t| ∧ (|p.2 - t| = |q.2 - t| → p.2 ≤ q.2) := by
  have hperm := sortByStamp_perm (stamp := (Prod.snd : S × ℝ → ℝ)) states
  have hne : (sortByStamp Prod.snd states).map Prod.snd ≠ [] := by
    intro h0
    rw [List.map_eq_nil_iff] at h0
    rw [h0] at hperm
    exact h hperm.symm.eq_nil
  have hsort : ((sortByStamp Prod.snd states).map Prod.snd).Pairwise (· ≤ ·) := by
    rw [List.pairwise_map]
    exact sortByStamp_sorted Prod.snd states
  obtain ⟨x, h1, h2⟩ := nearestIdx_spec _ t hne hsort
  rw [List.getElem?_map, Option.map_eq_some_iff] at h1
  obtain ⟨p, h3, rfl⟩ := h1
  refine ⟨p, hperm.mem_iff.mp (List.mem_of_getElem? h3), ?_, ?_⟩
  · unfold nearestState
    simp only
    rw [h3]
    rfl
  · intro q hq
    exact h2 q.2 (List.mem_map.mpr ⟨q, hperm.mem_iff.mpr hq, rfl⟩)

/-- Specification: component `i` of what the model of `y` gives at the state it is compared with; nothing where the model gives none. -/
noncomputable def modelledAt (M : ℕ → PModel S) (states : List (S × ℝ)) (y : PMeas) (i : ℕ) : Option ℝ :=
  (nearestState states y.stamp).bind fun x => ((M y.model).evaluate x).bind fun v => v[i]?

/-- Specification: three standard deviations of component `i` of the noise of `y`; nothing where the model gives no value. -/
noncomputable def threeSigmaAt (M : ℕ → PModel S) (states : List (S × ℝ)) (y : PMeas) (i : ℕ) : Option ℝ :=
  (nearestState states y.stamp).bind fun x => ((M y.model).evaluate x).bind fun _ => ((M y.model).variances x)[i]?.map fun r => 3 * Real.sqrt r

/-- Measurements with `m` components and models that agree. -/
structure SameSize (M : ℕ → PModel S) (meas : List PMeas) (states : List (S × ℝ)) (m : ℕ) : Prop where
  value : ∀ y ∈ meas, y.value.length = m
  model : ∀ y ∈ meas, ∀ p ∈ states, ∀ v, (M y.model).evaluate p.1 = some v → v.length = m
  variance : ∀ y ∈ meas, ∀ p ∈ states, ((M y.model).variances p.1).length = m ∧ ∀ r ∈ (M y.model).variances p.1, 0 ≤ r

theorem mapM_total {α β : Type} {f : α → Except Err β} {g : α → β} : ∀ (l : List α), (∀ a ∈ l, f a = .ok (g a)) → l.mapM f = .ok (l.map g)
  | [], _ => rfl
  | a :: l, h => by
    rw [List.mapM_cons, h a (by simp), mapM_total l (fun b hb => h b (by simp [hb]))]
    rfl

theorem rect_ok {rows : List (List (Option ℝ))} {m : ℕ} (h : ∀ r ∈ rows, r.length = m) : rect rows = .ok () := by
  cases rows with
  | nil => rfl
  | cons r rs =>
    unfold rect
    simp only
    rw [if_pos]
    rw [List.all_eq_true]
    intro q hq
    rw [beq_iff_eq, h q (by simp [hq]), h r (by simp)]

theorem column_ok {rows : List (List (Option ℝ))} {m i : ℕ} (h : ∀ r ∈ rows, r.length = m) (hi : i < m) :
    column rows i = .ok (rows.map fun r => (r[i]?).join) := by
  unfold column
  refine mapM_total rows fun r hr => ?_
  have : i < r.length := by rw [h r hr]; exact hi
  rw [List.getElem?_eq_getElem this]
  rfl

theorem measRow_lengths {M : ℕ → PModel S} {meas : List PMeas} {states : List (S × ℝ)} {m : ℕ} (h : SameSize M meas states m)
    {y : PMeas} (hy : y ∈ meas) {p : S × ℝ} (hp : p ∈ states) :
    (measRow (M y.model) y p.1).1.length = m ∧ (measRow (M y.model) y p.1).2.1.length = m ∧ (measRow (M y.model) y p.1).2.2.length = m := by
  unfold measRow
  refine ⟨by simp [h.value y hy], ?_, ?_⟩
  · cases e : (M y.model).evaluate p.1 with
    | none => simp [h.value y hy]
    | some v => simp [h.model y hy p hp v e]
  · cases e : (M y.model).evaluate p.1 with
    | none => simp [h.value y hy]
    | some v => simp [(h.variance y hy p hp).1]

theorem nearest_total (states : List (S × ℝ)) (h : states ≠ []) (t : ℝ) : ∃ p ∈ states, nearestState states t = some p.1 := by
  obtain ⟨p, h1, h2, _⟩ := C114_nearest states h t
  exact ⟨p, h1, h2⟩

/-- The row of a measurement. -/
noncomputable def rowOf (M : ℕ → PModel S) (states : List (S × ℝ)) (y : PMeas) : List (Option ℝ) × List (Option ℝ) × List (Option ℝ) :=
  match nearestState states y.stamp with
  | some x => measRow (M y.model) y x
  | none => ([], [], [])

theorem rowOf_comp {M : ℕ → PModel S} {meas : List PMeas} {states : List (S × ℝ)} (hs : states ≠ []) {m : ℕ} (h : SameSize M meas states m)
    {y : PMeas} (hy : y ∈ meas) (i : ℕ) (hi : i < m) :
    ((rowOf M states y).1[i]?).join = y.value[i]? ∧ ((rowOf M states y).2.1[i]?).join = modelledAt M states y i ∧
    ((rowOf M states y).2.2[i]?).join = threeSigmaAt M states y i := by
  obtain ⟨p, hp, hn⟩ := nearest_total states hs y.stamp
  unfold rowOf modelledAt threeSigmaAt
  rw [hn]
  simp only [Option.bind_some]
  unfold measRow
  have hl : i < y.value.length := by rw [h.value y hy]; exact hi
  refine ⟨?_, ?_, ?_⟩
  · simp [List.getElem?_eq_getElem hl]
  · cases e : (M y.model).evaluate p.1 with
    | none => simp [List.getElem?_replicate, hl]
    | some v =>
      have : i < v.length := by rw [h.model y hy p hp v e]; exact hi
      simp [List.getElem?_eq_getElem this]
  · cases e : (M y.model).evaluate p.1 with
    | none => simp [List.getElem?_replicate, hl]
    | some v =>
      have h1 : i < ((M y.model).variances p.1).length := by rw [(h.variance y hy p hp).1]; exact hi
      have h2 := (h.variance y hy p hp).2 _ (List.getElem_mem h1)
      simp [List.getElem?_eq_getElem h1, not_lt.mpr h2]

theorem zipWith_maps {α : Type} (f : Option ℝ → Option ℝ → Option ℝ) (a b : α → Option ℝ) (l : List α) :
    List.zipWith f (l.map a) (l.map b) = l.map fun x => f (a x) (b x) := by
  induction l with
  | nil => rfl
  | cons x l ih => simp [ih]

/-- **C114, `plot_meas`.** For measurements with `m` components (one or more) and models that agree, on new axes or on enough given ones,
`plot_meas` sorts the caller's list by time and draws on the axes of component `i`, against the stamps: the measured values as dots, the
modelled values at the nearest true states as a line, and the band of three standard deviations around that line; line and band have a gap
where a model gives no value. -/
theorem C114_meas (M : ℕ → PModel S) (meas : List PMeas) (hm : meas ≠ []) (states : List (S × ℝ)) (hs : states ≠ []) (m : ℕ) (hm1 : 1 ≤ m)
    (h : SameSize M meas states m) (axs : AxArg) (k : ℕ)
    (hax : (axs = .new ∧ k = m) ∨ (axs = .array k ∧ m ≤ k) ∨ (axs = .one ∧ m = 1 ∧ k = 1)) :
    ∃ p, plotMeas M meas states axs = .ok p ∧ p.meas = sortByStamp PMeas.stamp meas ∧ p.panels.length = k ∧
      (∀ i : ℕ, i < m → p.panels[i]? = some [
        Draw.dots (p.meas.map fun y => y.stamp) (p.meas.map fun y => y.value[i]?),
        Draw.line (p.meas.map fun y => y.stamp) (p.meas.map fun y => modelledAt M states y i) (some (.user "Modelled")),
        Draw.band (p.meas.map fun y => y.stamp)
          (p.meas.map fun y => nanAdd (modelledAt M states y i) (threeSigmaAt M states y i))
          (p.meas.map fun y => nanSub (modelledAt M states y i) (threeSigmaAt M states y i))]) ∧
      ∀ i : ℕ, m ≤ i → i < k → p.panels[i]? = some [] := by
  have hperm := sortByStamp_perm (stamp := PMeas.stamp) meas
  set ys := sortByStamp PMeas.stamp meas with hys
  have hmem : ∀ y ∈ ys, y ∈ meas := fun y hy => hperm.mem_iff.mp hy
  have hrows : ys.mapM (measRowAt M states) = .ok (ys.map (rowOf M states)) := by
    refine mapM_total ys fun y hy => ?_
    obtain ⟨p, hp, hn⟩ := nearest_total states hs y.stamp
    unfold rowOf measRowAt
    rw [hn]
  have hlen : ∀ y ∈ ys, (rowOf M states y).1.length = m ∧ (rowOf M states y).2.1.length = m ∧ (rowOf M states y).2.2.length = m := by
    intro y hy
    obtain ⟨p, hp, hn⟩ := nearest_total states hs y.stamp
    unfold rowOf
    rw [hn]
    exact measRow_lengths h (hmem y hy) hp
  have l1 : ∀ r ∈ (ys.map (rowOf M states)).map (fun r => r.1), r.length = m := by
    simp only [List.map_map, List.mem_map]
    rintro _ ⟨y, hy, rfl⟩
    exact (hlen y hy).1
  have l2 : ∀ r ∈ (ys.map (rowOf M states)).map (fun r => r.2.1), r.length = m := by
    simp only [List.map_map, List.mem_map]
    rintro _ ⟨y, hy, rfl⟩
    exact (hlen y hy).2.1
  have l3 : ∀ r ∈ (ys.map (rowOf M states)).map (fun r => r.2.2), r.length = m := by
    simp only [List.map_map, List.mem_map]
    rintro _ ⟨y, hy, rfl⟩
    exact (hlen y hy).2.2
  have hmk : m ≤ k := by
    rcases hax with ⟨_, rfl⟩ | ⟨_, h1⟩ | ⟨_, h1, h2⟩ <;> omega
  let D : ℕ → List Draw := fun i => [
        Draw.dots (ys.map fun y => y.stamp) (ys.map fun y => y.value[i]?),
        Draw.line (ys.map fun y => y.stamp) (ys.map fun y => modelledAt M states y i) (some (.user "Modelled")),
        Draw.band (ys.map fun y => y.stamp)
          (ys.map fun y => nanAdd (modelledAt M states y i) (threeSigmaAt M states y i))
          (ys.map fun y => nanSub (modelledAt M states y i) (threeSigmaAt M states y i))]
  have hpanel : ∀ i, i < m → measPanel (ys.map PMeas.stamp) ((ys.map (rowOf M states)).map fun r => r.1)
      ((ys.map (rowOf M states)).map fun r => r.2.1) ((ys.map (rowOf M states)).map fun r => r.2.2) i = .ok (D i) := by
    intro i hi
    unfold measPanel
    rw [column_ok l1 hi, column_ok l2 hi, column_ok l3 hi]
    simp only [bind, Except.bind, pure, Except.pure, List.map_map]
    have c1 : (ys.map fun y => ((rowOf M states y).1[i]?).join) = ys.map fun y => y.value[i]? :=
      List.map_congr_left fun y hy => (rowOf_comp hs h (hmem y hy) i hi).1
    have c2 : (ys.map fun y => ((rowOf M states y).2.1[i]?).join) = ys.map fun y => modelledAt M states y i :=
      List.map_congr_left fun y hy => (rowOf_comp hs h (hmem y hy) i hi).2.1
    have c3 : (ys.map fun y => ((rowOf M states y).2.2[i]?).join) = ys.map fun y => threeSigmaAt M states y i :=
      List.map_congr_left fun y hy => (rowOf_comp hs h (hmem y hy) i hi).2.2
    simp only [Function.comp_def]
    rw [c1, c2, c3, zipWith_maps, zipWith_maps]
  have hne : ys ≠ [] := by
    intro h0
    rw [h0] at hperm
    exact hm hperm.symm.eq_nil
  obtain ⟨y0, ys', hy0⟩ := List.exists_cons_of_ne_nil hne
  have hy0m : y0.value.length = m := h.value y0 (hmem y0 (by rw [hy0]; simp))
  have hk : measAxes m axs = .ok k := by
    unfold measAxes
    rcases hax with ⟨rfl, rfl⟩ | ⟨rfl, h1⟩ | ⟨rfl, h1, rfl⟩
    · simp only; rw [if_neg (by omega)]
    · simp only; rw [if_neg (by omega)]
    · rfl
  have hall : (List.range m).mapM (measPanelOf k (ys.map PMeas.stamp) ((ys.map (rowOf M states)).map fun r => r.1)
      ((ys.map (rowOf M states)).map fun r => r.2.1) ((ys.map (rowOf M states)).map fun r => r.2.2)) = .ok ((List.range m).map D) := by
    refine mapM_total _ fun i hi => ?_
    rw [List.mem_range] at hi
    unfold measPanelOf
    rw [if_neg (by omega), hpanel i hi]
  refine ⟨⟨ys, (List.range m).map D ++ List.replicate (k - m) []⟩, ?_, rfl, ?_, ?_, ?_⟩
  · unfold plotMeas
    simp only [← hys]
    rw [hrows]
    simp only [bind, Except.bind]
    rw [rect_ok l1, rect_ok l2, rect_ok l3]
    simp only
    rw [hy0]
    simp only
    rw [← hy0, hy0m, hk]
    simp only
    rw [hall]
    simp [pure, Except.pure]
  · simp; omega
  · intro i hi
    simp only
    rw [List.getElem?_append_left (by simpa using hi)]
    simp [hi, D]
  · intro i h1 h2
    simp only
    rw [List.getElem?_append_right (by simpa using h1), List.getElem?_replicate, if_pos]
    simp only [List.length_map, List.length_range]
    omega

theorem mapM_all {α β : Type} {f : α → Except Err β} : ∀ (l : List α) (r : List β), l.mapM f = .ok r → ∀ a ∈ l, ∃ b, f a = .ok b
  | [], r, h, a, ha => by simp at ha
  | x :: l, r, h, a, ha => by
    rw [List.mapM_cons] at h
    obtain ⟨b, h1, h⟩ := bind_ok h
    obtain ⟨bs, h2, h⟩ := bind_ok h
    rcases List.mem_cons.mp ha with rfl | ha
    · exact ⟨b, h1⟩
    · exact mapM_all l bs h2 a ha

/-- **C114, `plot_meas` raises.** With no measurements it raises `IndexError`; on a given `Axes`, or a given array with too few of them,
measurements with more components do not return. -/
theorem C114_meas_raises (M : ℕ → PModel S) (states : List (S × ℝ)) :
    (∀ axs, plotMeas M [] states axs = .error .indexError) ∧
    ∀ (meas : List PMeas) (m : ℕ), meas ≠ [] → (∀ y ∈ meas, y.value.length = m) →
      (2 ≤ m → ∀ p, plotMeas M meas states .one ≠ .ok p) ∧ ∀ k, k < m → ∀ p, plotMeas M meas states (.array k) ≠ .ok p := by
  have key : ∀ (meas : List PMeas) (m : ℕ), meas ≠ [] → (∀ y ∈ meas, y.value.length = m) → ∀ axs, (∀ k, measAxes m axs = .ok k → k < m) →
      ∀ p, plotMeas M meas states axs ≠ .ok p := by
    intro meas m hm hl axs hk p hp
    have hperm := sortByStamp_perm (stamp := PMeas.stamp) meas
    unfold plotMeas at hp
    obtain ⟨rows, -, hp⟩ := bind_ok hp
    obtain ⟨-, -, hp⟩ := bind_ok hp
    obtain ⟨-, -, hp⟩ := bind_ok hp
    obtain ⟨-, -, hp⟩ := bind_ok hp
    cases hys : sortByStamp PMeas.stamp meas with
    | nil =>
      rw [hys] at hperm
      exact hm hperm.symm.eq_nil
    | cons y ys =>
      have hym : y.value.length = m := hl y (hperm.mem_iff.mp (by rw [hys]; simp))
      rw [hys] at hp
      simp only at hp
      obtain ⟨k', h1, hp⟩ := bind_ok hp
      rw [hym] at h1
      obtain ⟨ps, h2, hp⟩ := bind_ok hp
      rw [hym] at h2
      have hk' : k' < m := hk k' h1
      obtain ⟨b, hb⟩ := mapM_all _ _ h2 k' (List.mem_range.mpr hk')
      unfold measPanelOf at hb
      rw [if_pos le_rfl] at hb
      cases hb
  refine ⟨fun axs => ?_, fun meas m hm hl => ⟨fun h2 p => key meas m hm hl .one ?_ p, fun k hk p => key meas m hm hl (.array k) ?_ p⟩⟩
  · unfold plotMeas
    rw [sortByStamp_of_sorted PMeas.stamp [] (by simp [TimeSorted])]
    rfl
  · intro k h
    simp only [measAxes, Except.ok.injEq] at h
    omega
  · intro j h
    simp only [measAxes] at h
    split at h
    · cases h
    · cases h; exact hk

/-! ### `plot_meas_by_model` -/

theorem addMeas_keys (y : PMeas) : ∀ g : List (ℕ × List PMeas),
    (addMeas y g).map Prod.fst = if y.model ∈ g.map Prod.fst then g.map Prod.fst else g.map Prod.fst ++ [y.model]
  | [] => by simp [addMeas]
  | (m, l) :: g => by
    unfold addMeas
    by_cases h : m = y.model
    · rw [if_pos h]; simp [h]
    · rw [if_neg h]
      simp only [List.map_cons, addMeas_keys y g, List.mem_cons]
      have h' : ¬ y.model = m := fun e => h e.symm
      by_cases h2 : y.model ∈ g.map Prod.fst
      · rw [if_pos h2, if_pos (.inr h2)]
      · rw [if_neg h2, if_neg (by simp only [h', false_or]; exact h2)]
        rfl

theorem addMeas_entries (y : PMeas) : ∀ (g : List (ℕ × List PMeas)), (g.map Prod.fst).Nodup → ∀ e ∈ addMeas y g,
    (e.1 ≠ y.model ∧ e ∈ g) ∨ (e.1 = y.model ∧ ((∃ l, (e.1, l) ∈ g ∧ e.2 = l ++ [y]) ∨ (y.model ∉ g.map Prod.fst ∧ e.2 = [y])))
  | [], _, e, he => by
    simp only [addMeas, List.mem_singleton] at he
    subst he
    right
    simp
  | (m, l) :: g, hn, e, he => by
    rw [List.map_cons, List.nodup_cons] at hn
    unfold addMeas at he
    by_cases h : m = y.model
    · rw [if_pos h] at he
      rcases List.mem_cons.mp he with rfl | he
      · exact .inr ⟨h, .inl ⟨l, by simp, rfl⟩⟩
      · left
        refine ⟨?_, by simp [he]⟩
        intro h2
        exact hn.1 (List.mem_map.mpr ⟨e, he, by rw [h2, h]⟩)
    · rw [if_neg h] at he
      rcases List.mem_cons.mp he with rfl | he
      · exact .inl ⟨h, by simp⟩
      · rcases addMeas_entries y g hn.2 e he with ⟨h1, h2⟩ | ⟨h1, ⟨l', h2, h3⟩ | ⟨h2, h3⟩⟩
        · exact .inl ⟨h1, by simp [h2]⟩
        · exact .inr ⟨h1, .inl ⟨l', by simp [h2], h3⟩⟩
        · refine .inr ⟨h1, .inr ⟨?_, h3⟩⟩
          simp only [List.map_cons, List.mem_cons, not_or]
          exact ⟨fun e => h e.symm, h2⟩

/-- The dictionary of the measurements by model: each model of a measurement once, with its measurements in the order of the list. -/
theorem groupMeas_spec (meas : List PMeas) : ((groupMeas meas).map Prod.fst).Nodup ∧
    (∀ id, id ∈ (groupMeas meas).map Prod.fst ↔ ∃ y ∈ meas, y.model = id) ∧
    ∀ e ∈ groupMeas meas, e.2 = meas.filter fun y => decide (y.model = e.1) := by
  unfold groupMeas
  suffices H : ∀ (post pre : List PMeas) (g : List (ℕ × List PMeas)), ((g.map Prod.fst).Nodup ∧
      (∀ id, id ∈ g.map Prod.fst ↔ ∃ y ∈ pre, y.model = id) ∧ ∀ e ∈ g, e.2 = pre.filter fun y => decide (y.model = e.1)) →
      let g' := post.foldl (fun g y => addMeas y g) g
      ((g'.map Prod.fst).Nodup ∧ (∀ id, id ∈ g'.map Prod.fst ↔ ∃ y ∈ pre ++ post, y.model = id) ∧
        ∀ e ∈ g', e.2 = (pre ++ post).filter fun y => decide (y.model = e.1)) by
    have := H meas [] [] (by simp)
    simpa using this
  intro post
  induction post with
  | nil => intro pre g h; simpa using h
  | cons y post ih =>
    rintro pre g ⟨h1, h2, h3⟩
    have := ih (pre ++ [y]) (addMeas y g) ⟨?_, ?_, ?_⟩
    · simpa using this
    · rw [addMeas_keys]
      split
      · exact h1
      · rename_i hm
        rw [List.nodup_append]
        refine ⟨h1, by simp, ?_⟩
        intro a ha b hb
        rw [List.mem_singleton] at hb
        rintro rfl
        exact hm (hb ▸ ha)
    · intro id
      rw [addMeas_keys]
      split
      · rename_i hm
        rw [h2]
        constructor
        · rintro ⟨z, hz, rfl⟩; exact ⟨z, by simp [hz], rfl⟩
        · rintro ⟨z, hz, rfl⟩
          rcases List.mem_append.mp hz with hz | hz
          · exact ⟨z, hz, rfl⟩
          · rw [List.mem_singleton] at hz
            subst hz
            exact (h2 _).mp hm
      · rw [List.mem_append, h2, List.mem_singleton]
        constructor
        · rintro (⟨z, hz, rfl⟩ | rfl)
          · exact ⟨z, by simp [hz], rfl⟩
          · exact ⟨y, by simp, rfl⟩
        · rintro ⟨z, hz, rfl⟩
          rcases List.mem_append.mp hz with hz | hz
          · exact .inl ⟨z, hz, rfl⟩
          · rw [List.mem_singleton] at hz
            subst hz
            exact .inr rfl
    · intro e he
      rw [List.filter_append]
      rcases addMeas_entries y g h1 e he with ⟨k1, k2⟩ | ⟨k1, ⟨l, k2, k3⟩ | ⟨k2, k3⟩⟩
      · rw [h3 e k2, List.filter_cons_of_neg (by simpa using fun e' => k1 e'.symm)]
        simp
      · have h4 := h3 _ k2
        simp only at h4
        rw [k3, h4, List.filter_cons_of_pos (by simpa using k1.symm)]
        simp
      · have : pre.filter (fun y => decide (y.model = e.1)) = [] := by
          rw [List.filter_eq_nil_iff]
          intro z hz
          simp only [decide_eq_true_eq]
          intro hzm
          exact k2 ((h2 _).mpr ⟨z, hz, by rw [hzm, k1]⟩)
        rw [k3, this, List.filter_cons_of_pos (by simpa using k1.symm)]
        simp

theorem plotGroups_new (M : ℕ → PModel S) (states : List (S × ℝ)) : ∀ (gs : List (ℕ × List PMeas)) (i : ℕ),
    (∀ e ∈ gs, ∃ p, plotMeas M e.2 states .new = .ok p) →
    ∃ r, plotGroups M states none i gs = .ok r ∧ r.map Prod.fst = gs.map Prod.fst ∧
      ∀ e ∈ r, ∃ l, (e.1, l) ∈ gs ∧ plotMeas M l states .new = .ok e.2
  | [], i, _ => ⟨[], rfl, rfl, by simp⟩
  | (m, l) :: gs, i, h => by
    obtain ⟨p, hp⟩ := h (m, l) (by simp)
    obtain ⟨r, h1, h2, h3⟩ := plotGroups_new M states gs (i + 1) fun e he => h e (by simp [he])
    refine ⟨(m, p) :: r, ?_, by simp [h2], ?_⟩
    · unfold plotGroups
      simp only at hp
      simp only [bind, Except.bind, hp, h1]
      rfl
    · intro e he
      rcases List.mem_cons.mp he with rfl | he
      · exact ⟨l, by simp, hp⟩
      · obtain ⟨l', k1, k2⟩ := h3 e he
        exact ⟨l', by simp [k1], k2⟩

/-- **C114, `plot_meas_by_model`.** Without given axes there is one plot for each model that has a measurement: that of its measurements
alone (as `plot_meas` draws them), whatever the order of the list; measurements of different models may have different sizes. With no
measurements at all the function raises `UnboundLocalError`. -/
theorem C114_by_model (M : ℕ → PModel S) (meas : List PMeas) (hm : meas ≠ []) (states : List (S × ℝ)) (hs : states ≠ [])
    (size : ℕ → ℕ) (h1 : ∀ id, 1 ≤ size id) (h : ∀ id, SameSize M (meas.filter fun y => decide (y.model = id)) states (size id)) :
    (∃ r, plotMeasByModel M meas states .new = .ok r ∧ (r.map Prod.fst).Nodup ∧ (∀ id, id ∈ r.map Prod.fst ↔ ∃ y ∈ meas, y.model = id) ∧
      ∀ e ∈ r, plotMeas M (meas.filter fun y => decide (y.model = e.1)) states .new = .ok e.2) ∧
    plotMeasByModel M [] states .new = .error .unboundLocal := by
  refine ⟨?_, rfl⟩
  obtain ⟨g1, g2, g3⟩ := groupMeas_spec meas
  have hne : ∀ e ∈ groupMeas meas, (meas.filter fun y => decide (y.model = e.1)) ≠ [] := by
    intro e he h0
    obtain ⟨y, hy, hye⟩ := (g2 e.1).mp (List.mem_map.mpr ⟨e, he, rfl⟩)
    rw [List.filter_eq_nil_iff] at h0
    exact h0 y hy (by simpa using hye)
  obtain ⟨r, k1, k2, k3⟩ := plotGroups_new M states (groupMeas meas) 0 (by
    intro e he
    rw [g3 e he]
    obtain ⟨p, hp, _⟩ := C114_meas M _ (hne e he) states hs (size e.1) (h1 _) (h e.1) .new (size e.1) (.inl ⟨rfl, rfl⟩)
    exact ⟨p, hp⟩)
  have hr : r.isEmpty = false := by
    cases r with
    | nil =>
      exfalso
      obtain ⟨y, ys, rfl⟩ := List.exists_cons_of_ne_nil hm
      have := (g2 y.model).mpr ⟨y, by simp, rfl⟩
      rw [← k2] at this
      simp at this
    | cons a l => rfl
  refine ⟨r, ?_, by rw [k2]; exact g1, fun id => by rw [k2]; exact g2 id, ?_⟩
  · unfold plotMeasByModel
    simp only [bind, Except.bind, k1, hr]
    rfl
  · intro e he
    obtain ⟨l, k4, k5⟩ := k3 e he
    have k6 := g3 _ k4
    simp only at k6
    rw [k6] at k5
    exact k5

/-- **C114, `plot_meas_by_model` on given axes.** It returns only if every model measures a single number: for a model with more components
there is one `Axes` and the function raises. -/
theorem C114_by_model_given (M : ℕ → PModel S) (meas : List PMeas) (states : List (S × ℝ)) (id m : ℕ) (hm : 2 ≤ m)
    (hex : ∃ y ∈ meas, y.model = id) (hl : ∀ y ∈ meas, y.model = id → y.value.length = m) (k : ℕ) (r : List (ℕ × MeasPlot)) :
    plotMeasByModel M meas states (.array k) ≠ .ok r := by
  intro hr
  obtain ⟨g1, g2, g3⟩ := groupMeas_spec meas
  unfold plotMeasByModel at hr
  obtain ⟨gv, hgv, hr⟩ := bind_ok hr
  simp only [Except.ok.injEq] at hgv
  subst hgv
  obtain ⟨r', hr', -⟩ := bind_ok hr
  have key : ∀ (gs : List (ℕ × List PMeas)) (i : ℕ) (r : List (ℕ × MeasPlot)), plotGroups M states (some k) i gs = .ok r →
      ∀ e ∈ gs, ∃ p, plotMeas M e.2 states .one = .ok p := by
    intro gs
    induction gs with
    | nil => intro i r _ e he; simp at he
    | cons a gs ih =>
      intro i r h e he
      obtain ⟨m', l⟩ := a
      unfold plotGroups at h
      simp only at h
      split at h
      · cases h
      · have h : (plotMeas M l states .one >>= fun p => plotGroups M states (some k) (i + 1) gs >>= fun r => pure ((m', p) :: r)) = .ok r := h
        obtain ⟨p, hp, h⟩ := bind_ok h
        obtain ⟨r2, h2, h⟩ := bind_ok h
        rcases List.mem_cons.mp he with rfl | he
        · exact ⟨p, hp⟩
        · exact ih (i + 1) r2 h2 e he
  have hid := (g2 id).mpr hex
  obtain ⟨e, he, rfl⟩ := List.mem_map.mp hid
  obtain ⟨p, hp⟩ := key _ _ _ hr' e he
  have hf := g3 e he
  rw [hf] at hp
  obtain ⟨y, hy, hye⟩ := hex
  refine ((C114_meas_raises M states).2 (meas.filter fun y => decide (y.model = e.1)) m ?_ ?_).1 hm p hp
  · intro h0
    rw [List.filter_eq_nil_iff] at h0
    exact h0 y hy (by simpa using hye)
  · intro z hz
    obtain ⟨h1, h2⟩ := List.mem_filter.mp hz
    exact hl z h1 (by simpa using h2)

/-- **C114, `plot_meas_by_model` on given axes, one number per measurement.** With at least as many axes as models there is one plot for each
model, of its measurements alone; with fewer axes the function does not return. -/
theorem C114_by_model_array (M : ℕ → PModel S) (meas : List PMeas) (hm : meas ≠ []) (states : List (S × ℝ)) (hs : states ≠ [])
    (h : SameSize M meas states 1) (k : ℕ) :
    (((meas.map PMeas.model).dedup.length ≤ k) → ∃ r, plotMeasByModel M meas states (.array k) = .ok r ∧ (r.map Prod.fst).Nodup ∧
      (∀ id, id ∈ r.map Prod.fst ↔ ∃ y ∈ meas, y.model = id) ∧
      ∀ e ∈ r, plotMeas M (meas.filter fun y => decide (y.model = e.1)) states .one = .ok e.2) ∧
    (k < (meas.map PMeas.model).dedup.length → ∀ r, plotMeasByModel M meas states (.array k) ≠ .ok r) := by
  obtain ⟨g1, g2, g3⟩ := groupMeas_spec meas
  have hlen : (groupMeas meas).length = (meas.map PMeas.model).dedup.length := by
    rw [← List.length_map (f := Prod.fst)]
    refine (List.perm_ext_iff_of_nodup g1 (List.nodup_dedup _)).mpr ?_ |>.length_eq
    intro id
    rw [g2, List.mem_dedup, List.mem_map]
  have hne : ∀ e ∈ groupMeas meas, (meas.filter fun y => decide (y.model = e.1)) ≠ [] := by
    intro e he h0
    obtain ⟨y, hy, hye⟩ := (g2 e.1).mp (List.mem_map.mpr ⟨e, he, rfl⟩)
    rw [List.filter_eq_nil_iff] at h0
    exact h0 y hy (by simpa using hye)
  have hsub : ∀ id, SameSize M (meas.filter fun y => decide (y.model = id)) states 1 := by
    intro id
    obtain ⟨a, b, c⟩ := h
    exact ⟨fun y hy => a y (List.mem_of_mem_filter hy), fun y hy => b y (List.mem_of_mem_filter hy), fun y hy => c y (List.mem_of_mem_filter hy)⟩
  constructor
  · intro hk
    have key : ∀ (gs : List (ℕ × List PMeas)) (i : ℕ), i + gs.length ≤ k → (∀ e ∈ gs, ∃ p, plotMeas M e.2 states .one = .ok p) →
        ∃ r, plotGroups M states (some k) i gs = .ok r ∧ r.map Prod.fst = gs.map Prod.fst ∧
          ∀ e ∈ r, ∃ l, (e.1, l) ∈ gs ∧ plotMeas M l states .one = .ok e.2 := by
      intro gs
      induction gs with
      | nil => intro i _ _; exact ⟨[], rfl, rfl, by simp⟩
      | cons a gs ih =>
        intro i hi hp
        obtain ⟨m, l⟩ := a
        rw [List.length_cons] at hi
        obtain ⟨p, hp1⟩ := hp (m, l) (by simp)
        simp only at hp1
        obtain ⟨r, h1, h2, h3⟩ := ih (i + 1) (by omega) fun e he => hp e (by simp [he])
        refine ⟨(m, p) :: r, ?_, by simp [h2], ?_⟩
        · unfold plotGroups
          simp only [if_neg (show ¬ k ≤ i by omega)]
          simp only [bind, Except.bind, hp1, h1]
          rfl
        · intro e he
          rcases List.mem_cons.mp he with rfl | he
          · exact ⟨l, by simp, hp1⟩
          · obtain ⟨l', k1, k2⟩ := h3 e he
            exact ⟨l', by simp [k1], k2⟩
    obtain ⟨r, k1, k2, k3⟩ := key (groupMeas meas) 0 (by rw [hlen]; omega) (by
      intro e he
      rw [g3 e he]
      obtain ⟨p, hp, _⟩ := C114_meas M _ (hne e he) states hs 1 le_rfl (hsub e.1) .one 1 (by simp)
      exact ⟨p, hp⟩)
    have hr : r.isEmpty = false := by
      cases r with
      | nil =>
        exfalso
        obtain ⟨y, ys, rfl⟩ := List.exists_cons_of_ne_nil hm
        have := (g2 y.model).mpr ⟨y, by simp, rfl⟩
        rw [← k2] at this
        simp at this
      | cons a l => rfl
    refine ⟨r, ?_, by rw [k2]; exact g1, fun id => by rw [k2]; exact g2 id, ?_⟩
    · unfold plotMeasByModel
      simp only [bind, Except.bind, k1, hr]
      rfl
    · intro e he
      obtain ⟨l, k4, k5⟩ := k3 e he
      have k6 := g3 _ k4
      simp only at k6
      rw [k6] at k5
      exact k5
  · intro hk r hr
    have key : ∀ (gs : List (ℕ × List PMeas)) (i : ℕ) (r : List (ℕ × MeasPlot)), plotGroups M states (some k) i gs = .ok r →
        gs = [] ∨ i + gs.length ≤ k := by
      intro gs
      induction gs with
      | nil => intro i r _; exact .inl rfl
      | cons a gs ih =>
        intro i r h
        obtain ⟨m', l⟩ := a
        unfold plotGroups at h
        simp only at h
        split at h
        · cases h
        · rename_i hki
          have h : (plotMeas M l states .one >>= fun p => plotGroups M states (some k) (i + 1) gs >>= fun r => pure ((m', p) :: r)) = .ok r := h
          obtain ⟨p, hp, h⟩ := bind_ok h
          obtain ⟨r2, h2, h⟩ := bind_ok h
          right
          rcases ih (i + 1) r2 h2 with rfl | h3
          · simp; omega
          · rw [List.length_cons]; omega
    unfold plotMeasByModel at hr
    obtain ⟨gv, hgv, hr⟩ := bind_ok hr
    simp only [Except.ok.injEq] at hgv
    subst hgv
    obtain ⟨r', hr', -⟩ := bind_ok hr
    rcases key _ _ _ hr' with h0 | h0
    · rw [h0] at hlen
      simp at hlen
      omega
    · omega

/-! ### Non-vacuity -/

/-- Two measurements given in the wrong order, a model that sees nothing at the second state. -/
example : ∃ (M : ℕ → PModel ℝ) (meas : List PMeas) (states : List (ℝ × ℝ)) (p : MeasPlot), SameSize M meas states 1 ∧
    plotMeas M meas states .new = .ok p ∧ (p.meas.map fun y => y.stamp) = [0, 3] ∧ p.meas ≠ meas ∧
    (p.meas.map fun y => modelledAt M states y 0) = [some 5, none] := by
  classical
  let M : ℕ → PModel ℝ := fun _ => ⟨fun x => if x = 5 then some [x] else none, fun _ => [1]⟩
  have hs : SameSize M [⟨[7], 3, 0⟩, ⟨[6], 0, 0⟩] [(5, 1), (8, 2)] 1 := by
    refine ⟨by simp, ?_, by simp [M]⟩
    intro y hy p hp v hv
    simp only [M] at hv
    split at hv
    · cases hv; rfl
    · cases hv
  obtain ⟨p, h1, h2, -⟩ := C114_meas M [⟨[7], 3, 0⟩, ⟨[6], 0, 0⟩] (by simp) [(5, 1), (8, 2)] (by simp) 1 le_rfl hs .new 1 (.inl ⟨rfl, rfl⟩)
  have hsort : sortByStamp PMeas.stamp [⟨[7], 3, 0⟩, ⟨[6], 0, 0⟩] = [⟨[6], 0, 0⟩, ⟨[7], 3, 0⟩] := by
    have hperm := sortByStamp_perm (stamp := PMeas.stamp) [⟨[7], 3, 0⟩, ⟨[6], 0, 0⟩]
    have hsd := sortByStamp_sorted PMeas.stamp [⟨[7], 3, 0⟩, ⟨[6], 0, 0⟩]
    refine List.Perm.eq_of_pairwise (le := fun a b : PMeas => a.stamp ≤ b.stamp) ?_ hsd (by simp) (hperm.trans (List.Perm.swap _ _ _))
    intro a b ha hb h1 h2
    simp only [List.mem_cons, List.not_mem_nil, or_false] at hb
    have ha' := hperm.mem_iff.mp ha
    simp only [List.mem_cons, List.not_mem_nil, or_false] at ha'
    rcases ha' with rfl | rfl <;> rcases hb with rfl | rfl <;> first | rfl | (exfalso; simp only at h1 h2; linarith)
  rw [hsort] at h2
  have hst : sortByStamp Prod.snd [((5 : ℝ), (1 : ℝ)), (8, 2)] = [(5, 1), (8, 2)] := sortByStamp_of_sorted _ _ (by simp [TimeSorted])
  refine ⟨M, _, _, p, hs, h1, by rw [h2]; rfl, by rw [h2]; simp, ?_⟩
  rw [h2]
  have n1 : nearestState [((5 : ℝ), (1 : ℝ)), (8, 2)] 0 = some 5 := by
    unfold nearestState nearestIdx
    rw [hst]
    simp only [List.map_cons, List.map_nil, List.tail_cons, List.zipWith_cons_cons, List.zipWith_nil_left]
    rw [List.filter_cons_of_neg (by norm_num)]
    rfl
  have n2 : nearestState [((5 : ℝ), (1 : ℝ)), (8, 2)] 3 = some 8 := by
    unfold nearestState nearestIdx
    rw [hst]
    simp only [List.map_cons, List.map_nil, List.tail_cons, List.zipWith_cons_cons, List.zipWith_nil_left]
    rw [List.filter_cons_of_pos (by norm_num)]
    rfl
  simp [modelledAt, n1, n2, M]

/-- Six components of error: three rows and two columns. -/
example : errorGrid 6 = (3, 2) ∧ errorGrid 15 = (3, 5) ∧ errorGrid 2 = (2, 1) ∧ errorGrid 4 = (3, 2) := by decide

end Verif
