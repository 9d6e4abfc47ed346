import Verif.Props.GaussNoise
import Verif.Props.MixResults
import Mathlib.Probability.Independence.InfinitePi

/-!
C120: a Monte Carlo experiment with a linear filter on white Gaussian noise. The experiment is repeated independently `N` times; the
average NEES that `monte_carlo` reports at a step lies between the bounds of `MonteCarloResult` with the stated probability.
-/

set_option linter.unusedSectionVars false
set_option linter.unusedVariables false

namespace Verif

open Matrix MeasureTheory ProbabilityTheory

variable {Ω : Type} {n : ℕ} {U : Type} [MeasurableSpace Ω] {μ : Measure Ω}

/-- The arrays of a `GaussianResultList`. -/
def trialOf (gs : List (GResult (Vec n) n)) : Trial :=
  ⟨gs.map GResult.nees, gs.map GResult.ees, List.ofFn fun j : Fin n => gs.map fun g => g.error j⟩

/-- One trial: the estimates `rs` are compared by `from_estimates` with the true states at the stamps `grid`, in the outcome `ω`. -/
noncomputable def evalTrial (X : ℝ → Ω → Vec n) (rs : List (Ω → SWC (Vec n) n)) (grid : List ℝ) (ω : Ω) : Except Err Trial :=
  (fromEstimates (vecStateOps n) .linear (rs.map fun r => ((r ω).state, (r ω).cov)) (grid.map fun t => (X t ω, t))).map trialOf

theorem columnAverage_same {rows : List (List ℝ)} {L : ℕ} (hne : rows ≠ []) (h : ∀ r ∈ rows, r.length = L) :
    columnAverage rows = .ok ((List.range L).map fun t => (rows.map fun q => q.getD t 0).sum / (rows.length : ℝ)) := by
  cases rows with
  | nil => exact absurd rfl hne
  | cons r rs =>
    have hr := h r (by simp)
    simp only [columnAverage]
    rw [if_pos (by
      rw [List.all_eq_true]
      intro q hq
      rw [h q (by simp [hq]), hr]
      simp), hr]

theorem mapM_ok {α β : Type} {f : α → Except Err β} {g : α → β} : ∀ {l : List α}, (∀ a ∈ l, f a = .ok (g a)) → l.mapM f = .ok (l.map g)
  | [], _ => rfl
  | a :: l, h => by
    rw [List.mapM_cons, h a (by simp), mapM_ok fun b hb => h b (by simp [hb])]
    rfl

/-- A grid of increasing stamps gives back its own states. -/
theorem grid_node (X : ℝ → Ω → Vec n) {grid : List ℝ} (hg : grid.Pairwise (· < ·)) {t : ℝ} (ht : t ∈ grid) (ω : Ω) :
    interpOne (vecStateOps n) .linear (grid.map fun t => (X t ω, t)) t = .ok (X t ω, t) := by
  obtain ⟨i, hi, rfl⟩ := List.getElem_of_mem ht
  have h := C50_node (vecStateOps n) (fun x => by show x + 0 = x; simp) (grid.map fun t => (X t ω, t))
    (by
      unfold InOrder
      have e : (grid.map fun t => (X t ω, t)).map Prod.snd = grid := by
        rw [List.map_map]
        exact List.map_id grid
      rw [e]
      exact hg.imp fun h => le_of_lt h) i (X grid[i] ω) grid[i]
    (by rw [List.getElem?_map, List.getElem?_eq_getElem hi]; rfl)
    (by
      intro y b hb
      rw [List.getElem?_map] at hb
      cases hq : grid[i + 1]? with
      | none => rw [hq] at hb; cases hb
      | some q =>
        rw [hq] at hb
        cases hb
        obtain ⟨h1, rfl⟩ := List.getElem?_eq_some_iff.1 hq
        exact List.pairwise_iff_getElem.1 hg i (i + 1) hi h1 (by omega))
  exact h

/-- The results of one trial. -/
theorem evalTrial_ok (X : ℝ → Ω → Vec n) (hn : 0 < n) {rs : List (Ω → SWC (Vec n) n)} {grid : List ℝ} (hg : grid.Pairwise (· < ·))
    (hrs : ∀ r ∈ rs, ∃ ys t P, Posterior μ X ys r t P ∧ P.PosDef ∧ t ∈ grid) (ω : Ω) :
    ∃ gs : List (GResult (Vec n) n), evalTrial X rs grid ω = .ok (trialOf gs) ∧ gs.length = rs.length ∧
      ∀ (j : ℕ) (r : Ω → SWC (Vec n) n), rs[j]? = some r → ∃ g t, gs[j]? = some g ∧ (r ω).state.stamp = some t ∧
        gaussianResult (vecStateOps n) (r ω).state (r ω).cov (X t ω) = .ok g := by
  have h1 : ∀ r ∈ rs, ∃ (t : ℝ) (g : GResult (Vec n) n), (r ω).state.stamp = some t ∧ t ∈ grid ∧
      gaussianResult (vecStateOps n) (r ω).state (r ω).cov (X t ω) = .ok g := by
    intro r hr
    obtain ⟨ys, t, P, h, hP, ht⟩ := hrs r hr
    obtain ⟨g, h1, -⟩ := C117_nees h hP hn
    exact ⟨t, g ω, h.honest.stamp ω, ht, h1 ω⟩
  have h1' : ∀ r, ∃ (t : ℝ) (g : Option (GResult (Vec n) n)), r ∈ rs → (r ω).state.stamp = some t ∧ t ∈ grid ∧
      ∃ g', g = some g' ∧ gaussianResult (vecStateOps n) (r ω).state (r ω).cov (X t ω) = .ok g' := by
    intro r
    by_cases hr : r ∈ rs
    · obtain ⟨t, g, a, b, c⟩ := h1 r hr
      exact ⟨t, some g, fun _ => ⟨a, b, g, rfl, c⟩⟩
    · exact ⟨0, none, fun h => absurd h hr⟩
  choose τ g0 hτ using h1'
  let g : (Ω → SWC (Vec n) n) → GResult (Vec n) n := fun r => (g0 r).getD ⟨none, 0, 0, 0, 0, 0, 0, 0, 0, 0⟩
  have h2 := fun r hr => (hτ r hr).1
  have h3 := fun r hr => (hτ r hr).2.1
  have h4 : ∀ r ∈ rs, gaussianResult (vecStateOps n) (r ω).state (r ω).cov (X (τ r) ω) = .ok (g r) := by
    intro r hr
    obtain ⟨-, -, g', a, b⟩ := hτ r hr
    rw [b]
    show _ = Except.ok ((g0 r).getD _)
    rw [a]
    rfl
  have hq : ∀ r ∈ rs, interpOne (vecStateOps n) .linear (grid.map fun t => (X t ω, t)) (τ r) = .ok (X (τ r) ω, τ r) :=
    fun r hr => grid_node X hg (h3 r hr) ω
  have e1 : stateInterp (vecStateOps n) .linear (grid.map fun t => (X t ω, t))
      (.list ((rs.map fun r => ((r ω).state, (r ω).cov)).map fun e => stampItem e.1.stamp))
        = .ok (.many (rs.map fun r => (X (τ r) ω, τ r))) := by
    have a1 : (((rs.map fun r => ((r ω).state, (r ω).cov)).map fun e => stampItem e.1.stamp)).mapM QItem.stamp = .ok (rs.map τ) := by
      rw [List.map_map, List.mapM_map]
      refine mapM_ok fun r hr => ?_
      show (stampItem (r ω).state.stamp).stamp = .ok (τ r)
      rw [h2 r hr]
      rfl
    have a2 : (rs.map τ).mapM (interpOne (vecStateOps n) .linear (grid.map fun t => (X t ω, t)))
        = .ok (rs.map fun r => (X (τ r) ω, τ r)) := by
      rw [List.mapM_map]
      exact mapM_ok fun r hr => hq r hr
    simp only [stateInterp, a1]
    show (List.mapM (interpOne (vecStateOps n) .linear (grid.map fun t => (X t ω, t))) (rs.map τ) >>= _) = _
    rw [a2]
    rfl
  have e2 : fromEstimates (vecStateOps n) .linear (rs.map fun r => ((r ω).state, (r ω).cov)) (grid.map fun t => (X t ω, t))
      = .ok (rs.map g) := by
    unfold fromEstimates
    rw [e1]
    show List.mapM _ ((rs.map fun r => ((r ω).state, (r ω).cov)).zip (rs.map fun r => (X (τ r) ω, τ r))) = _
    rw [List.zip_map', List.mapM_map]
    exact mapM_ok fun r hr => h4 r hr
  refine ⟨rs.map g, by unfold evalTrial; rw [e2]; rfl, by simp, fun j r hr => ?_⟩
  have hr' := List.mem_of_getElem? hr
  exact ⟨g r, τ r, by rw [List.getElem?_map, hr]; rfl, h2 r hr', h4 r hr'⟩

/-- The averages of trials of `L` results each. -/
theorem monteCarlo_same (num : ℕ) (hN : 0 < num) {done : List ℕ} (hd : done.Perm (List.range num)) (gs : ℕ → List (GResult (Vec n) n))
    {L : ℕ} (hL : ∀ k, (gs k).length = L) :
    ∃ mc, monteCarlo n num done (fun k => .ok (trialOf (gs k))) = .ok mc ∧ mc.averageNees.length = L ∧
      ∀ j < L, mc.averageNees[j]? = some ((∑ k ∈ Finset.range num, ((gs k).map GResult.nees).getD j 0) / num) := by
  have h1 : parallel num done (fun k => (.ok (trialOf (gs k)) : Except Err Trial)) = .ok ((List.range num).map fun k => trialOf (gs k)) := by
    rw [C98_parallel num done hd]
    refine ⟨by simp, fun i r hr => ?_⟩
    rw [List.getElem?_map] at hr
    cases hi : (List.range num)[i]? with
    | none => rw [hi] at hr; cases hr
    | some k =>
      rw [hi] at hr
      cases hr
      obtain ⟨a, b⟩ := List.getElem?_eq_some_iff.1 hi
      rw [List.getElem_range] at b
      rw [b]
  have hne : List.range num ≠ [] := by
    rw [Ne, List.range_eq_nil]
    omega
  have c1 := columnAverage_same (rows := ((List.range num).map fun k => trialOf (gs k)).map Trial.nees) (L := L) (by simpa using hne)
    (by
      intro r hr
      simp only [List.map_map, List.mem_map, Function.comp] at hr
      obtain ⟨k, -, rfl⟩ := hr
      simp [trialOf, hL])
  have c2 := columnAverage_same (rows := ((List.range num).map fun k => trialOf (gs k)).map Trial.ees) (L := L) (by simpa using hne)
    (by
      intro r hr
      simp only [List.map_map, List.mem_map, Function.comp] at hr
      obtain ⟨k, -, rfl⟩ := hr
      simp [trialOf, hL])
  have c3 : ∀ j ∈ List.range n, columnAverage (((List.range num).map fun k => trialOf (gs k)).map fun t => (t.error.getD j []).map fun e => e ^ 2)
      = .ok ((List.range L).map fun t => ((((List.range num).map fun k => trialOf (gs k)).map fun t => (t.error.getD j []).map fun e => e ^ 2).map
          fun q => q.getD t 0).sum / ((((List.range num).map fun k => trialOf (gs k)).map fun t => (t.error.getD j []).map fun e => e ^ 2).length : ℝ)) := by
    intro j hj
    have hj' := List.mem_range.1 hj
    refine columnAverage_same (by simpa using hne) ?_
    intro r hr
    simp only [List.map_map, List.mem_map, Function.comp] at hr
    obtain ⟨k, -, rfl⟩ := hr
    simp [trialOf, hL, List.getD_eq_getElem?_getD, hj']
  have key : ∀ an ae ms, columnAverage (((List.range num).map fun k => trialOf (gs k)).map Trial.nees) = .ok an →
      columnAverage (((List.range num).map fun k => trialOf (gs k)).map Trial.ees) = .ok ae →
      ((List.range n).mapM fun j => columnAverage (((List.range num).map fun k => trialOf (gs k)).map
        fun t => (t.error.getD j []).map fun e => e ^ 2)) = .ok ms →
      ∃ mc, monteCarlo n num done (fun k => .ok (trialOf (gs k))) = .ok mc ∧ mc.averageNees = an := by
    intro an ae ms k1 k2 k3
    unfold monteCarlo
    rw [h1]
    show ∃ mc, monteCarloResult n _ = _ ∧ _
    unfold monteCarloResult
    rw [k1, ok_bindE, k2, ok_bindE, k3, ok_bindE]
    exact ⟨_, rfl, rfl⟩
  obtain ⟨mc, e1, e2⟩ := key _ _ _ c1 c2 (mapM_ok c3)
  refine ⟨mc, e1, by rw [e2]; simp, fun j hj => ?_⟩
  rw [e2]
  simp only [List.getElem?_map, List.getElem?_range hj, Option.map_some, List.map_map, List.length_map, List.length_range]
  have hsum : ∀ f : ℕ → ℝ, ((List.range num).map f).sum = ∑ k ∈ Finset.range num, f k := fun f => rfl
  rw [hsum]
  rfl

variable {Ω' : Type} [MeasurableSpace Ω'] {ν : Measure Ω'}

/-- C120: the experiment is repeated independently (`w k` is the outcome of trial `k`); at every step the average NEES reported by
`monte_carlo`, whatever the order in which its jobs finish, lies between `nees_lower_bound(c)` and `nees_upper_bound(c)` with
probability `c`, and below `nees_upper_bound(c, double_sided=False)` with probability `c`. -/
theorem C120_monte_carlo [IsProbabilityMeasure ν] (X : ℝ → Ω → Vec n) (hn : 0 < n) {rs : List (Ω → SWC (Vec n) n)} {grid : List ℝ}
    (hg : grid.Pairwise (· < ·)) (hrs : ∀ r ∈ rs, ∃ ys t P, Posterior μ X ys r t P ∧ P.PosDef ∧ t ∈ grid)
    (w : ℕ → Ω' → Ω) (hwm : ∀ k, AEMeasurable (w k) ν) (hwl : ∀ k, ν.map (w k) = μ) (hwi : iIndepFun w ν)
    {num : ℕ} (hN : 0 < num) {done : List ℕ} (hd : done.Perm (List.range num))
    {ppf : ℝ → ℝ → ℝ} (hq : IsPpf ppf) {c : ℝ} (h0 : 0 < c) (h1 : c < 1) :
    ∃ (mc : Ω' → MonteCarlo) (lo hi one : ℝ),
      (∀ ω', monteCarlo n num done (fun k => evalTrial X rs grid (w k ω')) = .ok (mc ω')) ∧
      neesLowerBound ppf num [(n : ℝ)] c = .ok [lo] ∧ neesUpperBound ppf num [(n : ℝ)] c true = .ok [hi] ∧
      neesUpperBound ppf num [(n : ℝ)] c false = .ok [one] ∧ (∀ ω', (mc ω').averageNees.length = rs.length) ∧
      ∀ j < rs.length,
        ν {ω' | ∃ v, (mc ω').averageNees[j]? = some v ∧ lo ≤ v ∧ v ≤ hi} = ENNReal.ofReal c ∧
        ν {ω' | ∃ v, (mc ω').averageNees[j]? = some v ∧ v ≤ one} = ENNReal.ofReal c := by
  choose gs g1 g2 g3 using evalTrial_ok X hn hg hrs
  choose mc m1 m2 m3 using fun ω' => monteCarlo_same num hN hd (fun k => gs (w k ω')) (L := rs.length) fun k => g2 _
  have hno : ¬ (c ≥ 1 ∨ c ≤ 0) := by
    rintro (h | h) <;> linarith
  have hNpos : (0 : ℝ) < num := by exact_mod_cast hN
  refine ⟨mc, ppf ((1 - c) / 2) ((num * n : ℕ)) / num, ppf ((1 - c) / 2 + c) ((num * n : ℕ)) / num, ppf c ((num * n : ℕ)) / num,
    fun ω' => ?_, ?_, ?_, ?_, m2, ?_⟩
  · simp only [g1]
    exact m1 ω'
  · unfold neesLowerBound
    rw [if_neg hno]
    simp
  · unfold neesUpperBound
    rw [if_neg hno]
    simp [add_comm]
  · unfold neesUpperBound
    rw [if_neg hno]
    simp
  · intro j hj
    set Y : ℕ → Ω' → ℝ := fun k ω' => ((gs (w k ω')).map GResult.nees).getD j 0 with hY
    have law : μ.map (fun ω => ((gs ω).map GResult.nees).getD j 0) = chi2 n := by
      have hr : rs[j]? = some rs[j] := List.getElem?_eq_getElem hj
      obtain ⟨ys, t, P, hp, hP, -⟩ := hrs rs[j] (List.getElem_mem hj)
      obtain ⟨g, a1, a2⟩ := C117_nees hp hP hn
      have e : (fun ω => ((gs ω).map GResult.nees).getD j 0) = fun ω => (g ω).nees := by
        funext ω
        obtain ⟨g', t', b1, b2, b3⟩ := g3 ω j _ hr
        rw [hp.honest.stamp ω] at b2
        cases b2
        rw [a1 ω] at b3
        cases b3
        rw [List.getD_eq_getElem?_getD, List.getElem?_map, b1]
        rfl
      rw [e]
      exact a2
    have hm := aemeasurable_of_law law
    have hYi : iIndepFun Y ν := hwi.comp₀ (fun _ ω => ((gs ω).map GResult.nees).getD j 0) hwm fun k => by rw [hwl k]; exact hm
    have hYl : ∀ k, ν.map (Y k) = chi2 n := by
      intro k
      rw [← law, ← hwl k]
      exact (AEMeasurable.map_map_of_aemeasurable (by rw [hwl k]; exact hm) (hwm k)).symm
    have hs := chi2_sum (Finset.range num) hYi hYl
    rw [Finset.card_range] at hs
    have hk : 0 < num * n := Nat.mul_pos hN hn
    constructor
    · refine Eq.trans (congrArg ν ?_) ((law_apply hs measurableSet_Icc).trans (chi2_mid hq hk (a := (1 - c) / 2) (c := c) (by linarith) h0 (by linarith)))
      ext ω'
      simp only [Set.mem_ofPred_eq, m3 ω' j hj, Option.some.injEq, exists_eq_left']
      rw [div_le_div_iff_of_pos_right hNpos, div_le_div_iff_of_pos_right hNpos]
      rfl
    · refine Eq.trans (congrArg ν ?_) ((law_apply hs measurableSet_Iic).trans (hq _ c hk h0 h1))
      ext ω'
      simp only [Set.mem_ofPred_eq, m3 ω' j hj, Option.some.injEq, exists_eq_left']
      rw [div_le_div_iff_of_pos_right hNpos]
      rfl

/-- The hypotheses hold for the random log of `GaussNoise.lean`, repeated: with 50 trials, finished in reverse order, the average
NEES is within the 95% bounds with probability 0.95. -/
example : ∃ (r : Vec 4 → SWC (Vec 1) 1) (mc : (ℕ → Vec 4) → MonteCarlo) (ppf : ℝ → ℝ → ℝ) (lo hi : ℝ),
    (∀ ω', monteCarlo 1 50 (List.range 50).reverse (fun k => evalTrial walkTruth [r] [0, 1 / 2, 1] (ω' k)) = .ok (mc ω')) ∧
    neesLowerBound ppf 50 [((1 : ℕ) : ℝ)] (95 / 100) = .ok [lo] ∧ neesUpperBound ppf 50 [((1 : ℕ) : ℝ)] (95 / 100) true = .ok [hi] ∧
    Measure.infinitePi (fun _ : ℕ => normal (1 : Mat 4 4)) {ω' | ∃ v, (mc ω').averageNees[0]? = some v ∧ lo ≤ v ∧ v ≤ hi}
      = ENNReal.ofReal (95 / 100) := by
  obtain ⟨ppf, hq⟩ := exists_ppf
  obtain ⟨r, -, P, h, hP⟩ := walk_run
  obtain ⟨mc, lo, hi, one, h1, h2, h3, -, -, h6⟩ := C120_monte_carlo (ν := Measure.infinitePi (fun _ : ℕ => normal (1 : Mat 4 4)))
    walkTruth Nat.one_pos (rs := [r]) (grid := [0, 1 / 2, 1]) (by norm_num)
    (fun r' hr => by rw [List.mem_singleton.mp hr]; exact ⟨_, _, P, h, hP, by simp⟩) (fun k ω' => ω' k)
    (fun k => (measurable_pi_apply k).aemeasurable) (fun k => Measure.infinitePi_map_eval _ k)
    (iIndepFun_infinitePi (X := fun _ ω => ω) fun _ => measurable_id) (num := 50) (by norm_num) (List.reverse_perm _) hq
    (c := 95 / 100) (by norm_num) (by norm_num)
  exact ⟨r, mc, ppf, lo, hi, h1, h2, h3, (h6 0 (by simp)).1⟩

end Verif
