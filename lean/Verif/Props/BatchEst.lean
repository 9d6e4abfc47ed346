import Verif.Model.BatchEst
import Verif.Props.Stamps
import Verif.Props.Mixture

/-!
Property theorems about `BatchEstimator` (`navlie/batch/estimator.py`; C46, C47, C71).
-/

namespace Verif

set_option linter.unusedVariables false
set_option linter.unusedSectionVars false

variable {V U : Type} {n : ℕ}

/-- Specification: `k` is the index of a stamp nearest to `q`. -/
def IsNearest (stamps : List ℝ) (q : ℝ) (k : ℕ) : Prop :=
  ∃ t, stamps[k]? = some t ∧ ∀ t' ∈ stamps, |t - q| ≤ |t' - q|

theorem IsNearest.exact {stamps : List ℝ} {q : ℝ} {k : ℕ} (h : IsNearest stamps q k) (hq : q ∈ stamps) :
    stamps[k]? = some q := by
  obtain ⟨t, h1, h2⟩ := h
  have h4 := h2 q hq
  rw [sub_self, abs_zero] at h4
  have h5 : t - q = 0 := abs_eq_zero.1 (le_antisymm h4 (abs_nonneg _))
  rw [h1, show t = q by linarith]

theorem findNearest_isNearest {stamps : List ℝ} {q : ℝ} {k : ℕ} (h : findNearestIdx stamps q = .ok k) :
    IsNearest stamps q k := by
  have hne : stamps ≠ [] := by
    rintro rfl
    rw [C49_empty_raises] at h
    cases h
  obtain ⟨i, h1, t, h2, h3⟩ := C49_nearest stamps hne q
  rw [h1] at h
  cases h
  exact ⟨t, h2, fun t' ht' => (h3 t' ht').1⟩

/-- What the estimator uses of a log: if some entry is not older than `x0`, exactly the entries that are not older,
in time order; otherwise everything, in time order. -/
theorem batchUsed_spec {α : Type} (stamp : α → ℝ) (t0 : ℝ) (l : List α) :
    TimeSorted stamp (batchUsed stamp t0 l) ∧
    ((∃ a ∈ l, t0 ≤ stamp a) → ∀ a, a ∈ batchUsed stamp t0 l ↔ a ∈ l ∧ t0 ≤ stamp a) ∧
    ((∀ a ∈ l, stamp a < t0) → (batchUsed stamp t0 l).Perm l) := by
  classical
  have hs := sortByStamp_sorted stamp l
  unfold batchUsed dropBefore
  refine ⟨?_, ?_, ?_⟩
  · split
    · rw [dropWhile_sorted stamp hs]
      exact hs.filter _ _
    · exact hs
  · rintro ⟨a, ha, hat⟩ b
    rw [if_pos ⟨a, (sortByStamp_mem stamp).2 ha, hat⟩, dropWhile_sorted stamp hs]
    simp [List.mem_filter, sortByStamp_mem]
  · intro h
    rw [if_neg]
    · exact sortByStamp_perm stamp l
    · rintro ⟨a, ha, hat⟩
      exact absurd (h a ((sortByStamp_mem stamp).1 ha)) (not_lt.2 hat)

/-- A process model that does not touch the stamp of the state (all models of `lib/models.py`). -/
def KeepsStamp (f : ProcModel V U n) : Prop := ∀ x u dt, (f.evaluate x u dt).stamp = x.stamp

theorem batchAdvance_ok {f : ProcModel V U n} (hf : KeepsStamp f) {x : St V} {t : ℝ} (hx : x.stamp = some t)
    (u : StInp U) (dt : ℝ) : batchAdvance f x u dt =
      .ok ⟨(f.evaluate x ⟨u.value, some u.stamp⟩ dt).value, some (t + dt)⟩ := by
  unfold batchAdvance
  rw [hf, hx]

theorem stampDiff_ok {s t : ℝ} {x : St V} (hx : x.stamp = some t) : stampDiff (some s) x.stamp = .ok (s - t) := by
  rw [hx]; rfl

theorem batchPropagate_stamps {f : ProcModel V U n} (hf : KeepsStamp f) {us : List (StInp U)} {ist : List ℝ} :
    ∀ {ss : List ℝ} {idx : ℕ} {x : St V} {xs : List (St V)} {t : ℝ}, x.stamp = some t →
    batchPropagate f us ist ss idx x = .ok xs → xs.map St.stamp = ss.map some
  | [], idx, x, xs, t, hx, h => by
    simp only [batchPropagate] at h
    cases h; rfl
  | s :: ss, idx, x, xs, t, hx, h => by
    unfold batchPropagate at h
    obtain ⟨u, h1, h⟩ := bind_ok h
    rw [stampDiff_ok hx, ok_bindE] at h
    obtain ⟨-, h2, h⟩ := bind_ok h
    rw [batchAdvance_ok hf hx, ok_bindE] at h
    obtain ⟨nxt, h3, h⟩ := bind_ok h
    obtain ⟨rest, h4, h⟩ := bind_ok h
    cases h
    have ih := batchPropagate_stamps hf (t := t + (s - t)) rfl h4
    simp only [List.map_cons, ih]
    congr 2
    ring

theorem batchProcess_spec {stamps : List ℝ} : ∀ {us : List (StInp U)} {ps : List (BFactor V U n)},
    batchProcess stamps us = .ok ps → ps.length = us.length - 1 ∧
    ∀ (i : ℕ) (u u' : StInp U), us[i]? = some u → us[i + 1]? = some u' →
      ∃ k1 k2, ps[i]? = some (.process k1 k2 u) ∧ IsNearest stamps u.stamp k1 ∧ IsNearest stamps u'.stamp k2
  | [], ps, h => by
    simp only [batchProcess] at h
    cases h; simp
  | [u], ps, h => by
    simp only [batchProcess] at h
    cases h; simp
  | u :: u' :: us, ps, h => by
    simp only [batchProcess] at h
    obtain ⟨k1, h1, h⟩ := bind_ok h
    obtain ⟨k2, h2, h⟩ := bind_ok h
    obtain ⟨rest, h3, h⟩ := bind_ok h
    cases h
    obtain ⟨i1, i2⟩ := batchProcess_spec h3
    refine ⟨by simp [i1], ?_⟩
    rintro (_ | i) v v' hv hv'
    · simp only [List.getElem?_cons_zero, Option.some.injEq] at hv
      simp only [Nat.zero_add, List.getElem?_cons_succ, List.getElem?_cons_zero, Option.some.injEq] at hv'
      subst hv hv'
      exact ⟨k1, k2, by simp, findNearest_isNearest h1, findNearest_isNearest h2⟩
    · obtain ⟨k1, k2, j⟩ := i2 i v v' (by simpa using hv) (by simpa using hv')
      exact ⟨k1, k2, by simpa using j⟩

theorem batchMeas_spec {stamps : List ℝ} : ∀ {ys : List (StMeas V n)} {ms : List (BFactor V U n)},
    batchMeas stamps ys = .ok ms → ms.length = ys.length ∧
    ∀ (i : ℕ) (y : StMeas V n), ys[i]? = some y →
      ∃ k, ms[i]? = some (.meas k y) ∧ IsNearest stamps y.stamp k
  | [], ms, h => by
    simp only [batchMeas] at h
    cases h; simp
  | y :: ys, ms, h => by
    simp only [batchMeas] at h
    obtain ⟨k, h1, h⟩ := bind_ok h
    obtain ⟨rest, h3, h⟩ := bind_ok h
    cases h
    obtain ⟨i1, i2⟩ := batchMeas_spec h3
    refine ⟨by simp [i1], ?_⟩
    rintro (_ | i) v hv
    · simp only [List.getElem?_cons_zero, Option.some.injEq] at hv
      subst hv
      exact ⟨k, by simp, findNearest_isNearest h1⟩
    · obtain ⟨k, j⟩ := i2 i v (by simpa using hv)
      exact ⟨k, by simpa using j⟩

theorem mem_batchStamps {rnd : ℝ → ℝ} {us : List (StInp U)} {ys : List (StMeas V n)} {t : ℝ} :
    t ∈ batchStamps rnd us ys ↔ (∃ u ∈ us, rnd u.stamp = t) ∨ ∃ y ∈ ys, rnd y.stamp = t := by
  unfold batchStamps
  rw [npUnique_mem]
  simp

/-- What a successful construction went through. -/
theorem batchGraph_parts {f : ProcModel V U n} {rnd : ℝ → ℝ} {x0 : St V} {P0 : Mat n n} {inputs : List (StInp U)}
    {meas : List (StMeas V n)} {g : BatchGraph V U n} {t0 : ℝ} (h0 : x0.stamp = some t0)
    (h : batchGraph f rnd x0 P0 inputs meas = .ok g) :
    ∃ (s0 : ℝ) (ss : List ℝ) (xs : List (St V)) (ps ms : List (BFactor V U n)),
      batchStamps rnd (batchUsed StInp.stamp t0 inputs) (batchUsed StMeas.stamp t0 meas) = s0 :: ss ∧
      batchPropagate f (batchUsed StInp.stamp t0 inputs)
        ((batchUsed StInp.stamp t0 inputs).map fun u => rnd u.stamp) ss 0 x0 = .ok xs ∧
      batchProcess (s0 :: ss) (batchUsed StInp.stamp t0 inputs) = .ok ps ∧
      batchMeas (s0 :: ss) (batchUsed StMeas.stamp t0 meas) = .ok ms ∧
      g = ⟨x0 :: xs, .prior 0 x0.value P0 :: ps ++ ms⟩ := by
  unfold batchGraph at h
  rw [h0] at h
  simp only at h
  obtain ⟨xs, h1, h⟩ := bind_ok h
  obtain ⟨ps, h2, h⟩ := bind_ok h
  obtain ⟨ms, h3, h⟩ := bind_ok h
  cases h
  cases hst : batchStamps rnd (batchUsed StInp.stamp t0 inputs) (batchUsed StMeas.stamp t0 meas) with
  | nil => rw [hst] at h1; cases h1
  | cons s0 ss =>
    rw [hst] at h1 h2 h3
    simp only [batchStates] at h1
    obtain ⟨ys, h4, h1⟩ := bind_ok h1
    cases h1
    exact ⟨s0, ss, ys, ps, ms, rfl, h4, h2, h3, rfl⟩

/-- **C46.** The factor graph. Write `us`, `ys` for the inputs and measurements that are used. There is one variable
for each distinct (rounded) stamp of `us` and `ys`, in strictly increasing order of stamps; the first one is `x0`, the
others carry their stamp. There is one prior on variable 0, exactly one process residual for each pair of consecutive
inputs, with that input, and exactly one measurement residual for each measurement; each is attached to variables whose
stamps are nearest. -/
theorem C46_graph (f : ProcModel V U n) (hf : KeepsStamp f) (rnd : ℝ → ℝ) (x0 : St V) (t0 : ℝ)
    (h0 : x0.stamp = some t0) (P0 : Mat n n) (inputs : List (StInp U)) (meas : List (StMeas V n))
    (g : BatchGraph V U n) (h : batchGraph f rnd x0 P0 inputs meas = .ok g)
    (us : List (StInp U)) (hus : us = batchUsed StInp.stamp t0 inputs)
    (ys : List (StMeas V n)) (hys : ys = batchUsed StMeas.stamp t0 meas) :
    ∃ stamps : List ℝ, stamps.Pairwise (· < ·) ∧
      (∀ t, t ∈ stamps ↔ (∃ u ∈ us, rnd u.stamp = t) ∨ ∃ y ∈ ys, rnd y.stamp = t) ∧
      g.vars.length = stamps.length ∧ g.vars[0]? = some x0 ∧
      (∀ (k : ℕ) (x : St V), 1 ≤ k → g.vars[k]? = some x → x.stamp = stamps[k]?) ∧
      ∃ ps ms : List (BFactor V U n), g.factors = .prior 0 x0.value P0 :: ps ++ ms ∧
        ps.length = us.length - 1 ∧ ms.length = ys.length ∧
        (∀ (i : ℕ) (u u' : StInp U), us[i]? = some u → us[i + 1]? = some u' →
          ∃ k1 k2, ps[i]? = some (.process k1 k2 u) ∧ IsNearest stamps u.stamp k1 ∧ IsNearest stamps u'.stamp k2) ∧
        (∀ (i : ℕ) (y : StMeas V n), ys[i]? = some y →
          ∃ k, ms[i]? = some (.meas k y) ∧ IsNearest stamps y.stamp k) := by
  obtain ⟨s0, ss, xs, ps, ms, h1, h2, h3, h4, rfl⟩ := batchGraph_parts h0 h
  subst hus hys
  have hst := batchPropagate_stamps hf h0 h2
  have hlen : xs.length = ss.length := by simpa using congrArg List.length hst
  refine ⟨s0 :: ss, ?_, ?_, by simp [hlen], by simp, ?_, ps, ms, rfl, (batchProcess_spec h3).1, (batchMeas_spec h4).1,
    (batchProcess_spec h3).2, (batchMeas_spec h4).2⟩
  · rw [← h1]; exact npUnique_sorted _
  · intro t
    rw [← h1, mem_batchStamps]
  · rintro (_ | k) x hk hx
    · omega
    · simp only [List.getElem?_cons_succ] at hx ⊢
      have := congrArg (fun l => l[k]?) hst
      simp only [List.getElem?_map, hx, Option.map_some] at this
      cases hs : ss[k]? with
      | none => rw [hs] at this; cases this
      | some s => rw [hs] at this; simpa using this

/-- **C46, exact stamps.** If rounding does not change the stamps of the data, every residual is attached to variables
of exactly its own stamps. -/
theorem C46_exact_keys (f : ProcModel V U n) (hf : KeepsStamp f) (rnd : ℝ → ℝ) (x0 : St V) (t0 : ℝ)
    (h0 : x0.stamp = some t0) (P0 : Mat n n) (inputs : List (StInp U)) (meas : List (StMeas V n))
    (hi : ∀ u ∈ inputs, rnd u.stamp = u.stamp) (hm : ∀ y ∈ meas, rnd y.stamp = y.stamp)
    (g : BatchGraph V U n) (h : batchGraph f rnd x0 P0 inputs meas = .ok g) :
    ∃ stamps : List ℝ, stamps.Pairwise (· < ·) ∧ g.vars.length = stamps.length ∧
      (∀ (k : ℕ) (x : St V), 1 ≤ k → g.vars[k]? = some x → x.stamp = stamps[k]?) ∧
      (∀ (k1 k2 : ℕ) (u : StInp U), BFactor.process k1 k2 u ∈ g.factors →
        stamps[k1]? = some u.stamp ∧ ∃ u' ∈ inputs, u.stamp ≤ u'.stamp ∧ stamps[k2]? = some u'.stamp) ∧
      (∀ (k : ℕ) (y : StMeas V n), BFactor.meas k y ∈ g.factors → stamps[k]? = some y.stamp) := by
  have husub : ∀ u ∈ batchUsed StInp.stamp t0 inputs, u ∈ inputs := by
    intro u hu
    by_cases hex : ∃ a ∈ inputs, t0 ≤ StInp.stamp a
    · exact (((batchUsed_spec _ _ _).2.1 hex u).1 hu).1
    · push Not at hex
      exact (((batchUsed_spec _ _ _).2.2 hex).mem_iff).1 hu
  have hysub : ∀ u ∈ batchUsed StMeas.stamp t0 meas, u ∈ meas := by
    intro u hu
    by_cases hex : ∃ a ∈ meas, t0 ≤ StMeas.stamp a
    · exact (((batchUsed_spec _ _ _).2.1 hex u).1 hu).1
    · push Not at hex
      exact (((batchUsed_spec _ _ _).2.2 hex).mem_iff).1 hu
  obtain ⟨stamps, g1, g2, g3, g4, g5, ps, ms, g6, g7, g8, g9, g10⟩ :=
    C46_graph f hf rnd x0 t0 h0 P0 inputs meas g h _ rfl _ rfl
  refine ⟨stamps, g1, g3, g5, ?_, ?_⟩
  · intro k1 k2 u hu
    rw [g6] at hu
    simp only [List.cons_append, List.mem_cons, reduceCtorEq, false_or, List.mem_append] at hu
    rcases hu with hu | hu
    · obtain ⟨i, hi', hiu⟩ := List.getElem_of_mem hu
      have h1 : i < (batchUsed StInp.stamp t0 inputs).length := by omega
      have h2 : i + 1 < (batchUsed StInp.stamp t0 inputs).length := by omega
      obtain ⟨k1', k2', e1, e2, e3⟩ := g9 i _ _ (List.getElem?_eq_getElem h1) (List.getElem?_eq_getElem h2)
      rw [List.getElem?_eq_getElem hi', hiu] at e1
      simp only [Option.some.injEq, BFactor.process.injEq] at e1
      obtain ⟨rfl, rfl, e4⟩ := e1
      have m1 := List.getElem_mem h1
      have m2 := List.getElem_mem h2
      have hsorted := (batchUsed_spec StInp.stamp t0 inputs).1
      refine ⟨?_, _, husub _ m2, ?_, e3.exact ((g2 _).2 (Or.inl ⟨_, m2, hi _ (husub _ m2)⟩))⟩
      · rw [e4]; exact e2.exact ((g2 _).2 (Or.inl ⟨_, m1, hi _ (husub _ m1)⟩))
      · rw [e4]
        exact (List.pairwise_iff_getElem.1 hsorted) i (i + 1) h1 h2 (by omega)
    · obtain ⟨i, hi', hiu⟩ := List.getElem_of_mem hu
      obtain ⟨k, e1, -⟩ := g10 i _ (List.getElem?_eq_getElem (by omega))
      rw [List.getElem?_eq_getElem hi', hiu] at e1
      simp at e1
  · intro k y hu
    rw [g6] at hu
    simp only [List.cons_append, List.mem_cons, reduceCtorEq, false_or, List.mem_append] at hu
    rcases hu with hu | hu
    · obtain ⟨i, hi', hiu⟩ := List.getElem_of_mem hu
      obtain ⟨k1', k2', e1, -, -⟩ := g9 i _ _ (List.getElem?_eq_getElem (by omega)) (List.getElem?_eq_getElem (by omega))
      rw [List.getElem?_eq_getElem hi', hiu] at e1
      simp at e1
    · obtain ⟨i, hi', hiu⟩ := List.getElem_of_mem hu
      have h1 : i < (batchUsed StMeas.stamp t0 meas).length := by omega
      obtain ⟨k', e1, e2⟩ := g10 i _ (List.getElem?_eq_getElem h1)
      rw [List.getElem?_eq_getElem hi', hiu] at e1
      simp only [Option.some.injEq, BFactor.meas.injEq] at e1
      obtain ⟨rfl, e4⟩ := e1
      have m1 := List.getElem_mem h1
      rw [e4]
      exact e2.exact ((g2 _).2 (Or.inr ⟨_, m1, hm _ (hysub _ m1)⟩))

/-! ### Which input drives which step; success and failure -/

/-- Invariant of the propagation loop at time `c`. -/
structure LoopInv (ist : List ℝ) (c : ℝ) (ss : List ℝ) (idx : ℕ) : Prop where
  sorted : (c :: ss).Pairwise (· < ·)
  inputs : ist.Pairwise (· < ·)
  rest : ∀ t ∈ ist, c < t → t ∈ ss
  lt : idx < ist.length
  past : idx = 0 ∨ ∃ t, ist[idx]? = some t ∧ t ≤ c
  future : ∀ (j : ℕ) (t : ℝ), idx < j → ist[j]? = some t → c < t

theorem LoopInv.step {ist ss : List ℝ} {c s nxt : ℝ} {idx : ℕ} (I : LoopInv ist c (s :: ss) idx)
    (hn : ist[idx + 1]? = some nxt) : LoopInv ist s ss (batchNextIdx s nxt idx) := by
  have hsort := I.sorted
  rw [List.pairwise_cons] at hsort
  have hcs : c < s := hsort.1 s (by simp)
  have hss := List.pairwise_cons.1 hsort.2
  have hlt : idx + 1 < ist.length := by
    by_contra hh
    rw [List.getElem?_eq_none (by omega)] at hn
    cases hn
  have hcn : c < nxt := I.future (idx + 1) nxt (by omega) hn
  have hsn : s ≤ nxt := by
    have := I.rest nxt (List.mem_of_getElem? hn) hcn
    rcases List.mem_cons.1 this with h | h
    · exact h.symm.le
    · exact (hss.1 _ h).le
  have hrest : ∀ t ∈ ist, s < t → t ∈ ss := by
    intro t ht hst
    rcases List.mem_cons.1 (I.rest t ht (hcs.trans hst)) with h | h
    · exact absurd hst (by rw [h]; exact lt_irrefl _)
    · exact h
  have hget := List.pairwise_iff_getElem.1 I.inputs
  unfold batchNextIdx
  split
  · rename_i hlt2
    refine ⟨hsort.2, I.inputs, hrest, I.lt, ?_, ?_⟩
    · rcases I.past with h | ⟨t, h1, h2⟩
      · exact Or.inl h
      · exact Or.inr ⟨t, h1, h2.trans hcs.le⟩
    · intro j t hj hjt
      have hjl : j < ist.length := by
        by_contra hh
        rw [List.getElem?_eq_none (by omega)] at hjt
        cases hjt
      rcases Nat.lt_or_eq_of_le (Nat.succ_le_of_lt hj) with h | h
      · have := hget (idx + 1) j hlt hjl h
        rw [List.getElem?_eq_getElem hlt] at hn
        rw [List.getElem?_eq_getElem hjl] at hjt
        cases hn; cases hjt
        exact hlt2.trans this
      · subst h
        rw [Nat.succ_eq_add_one, hn] at hjt
        cases hjt
        exact hlt2
  · rename_i hge
    have he : s = nxt := le_antisymm hsn (not_lt.1 hge)
    refine ⟨hsort.2, I.inputs, hrest, hlt, Or.inr ⟨nxt, hn, he.symm.le⟩, ?_⟩
    intro j t hj hjt
    have hjl : j < ist.length := by
      by_contra hh
      rw [List.getElem?_eq_none (by omega)] at hjt
      cases hjt
    have := hget (idx + 1) j hlt hjl hj
    rw [List.getElem?_eq_getElem hlt] at hn
    rw [List.getElem?_eq_getElem hjl] at hjt
    cases hn; cases hjt
    rw [he]; exact this

/-- Specification: `u` is the input in force at time `c`: the last one that has started, or the first one if none has. -/
def InForce (rnd : ℝ → ℝ) (us : List (StInp U)) (c : ℝ) (u : StInp U) : Prop :=
  ∃ i, us[i]? = some u ∧ (i = 0 ∨ rnd u.stamp ≤ c) ∧ ∀ (j : ℕ) (u' : StInp U), i < j → us[j]? = some u' → c < rnd u'.stamp

theorem LoopInv.inForce {rnd : ℝ → ℝ} {us : List (StInp U)} {c : ℝ} {ss : List ℝ} {idx : ℕ}
    (I : LoopInv (us.map fun u => rnd u.stamp) c ss idx) {u : StInp U} (hu : us[idx]? = some u) :
    InForce rnd us c u := by
  refine ⟨idx, hu, ?_, ?_⟩
  · rcases I.past with h | ⟨t, h1, h2⟩
    · exact Or.inl h
    · rw [List.getElem?_map, hu] at h1
      simp only [Option.map_some, Option.some.injEq] at h1
      exact Or.inr (by rw [h1]; exact h2)
  · intro j u' hj hju
    exact I.future j _ hj (by rw [List.getElem?_map, hju]; rfl)

theorem batchPropagate_inputs {f : ProcModel V U n} (hf : KeepsStamp f) {rnd : ℝ → ℝ} {us : List (StInp U)} :
    ∀ {ss : List ℝ} {c : ℝ} {idx : ℕ} {x : St V} {xs : List (St V)} {t : ℝ}, x.stamp = some t →
    LoopInv (us.map fun u => rnd u.stamp) c ss idx →
    batchPropagate f us (us.map fun u => rnd u.stamp) ss idx x = .ok xs →
    ∀ (k : ℕ) (y z : St V) (a b tk : ℝ), (x :: xs)[k]? = some y → xs[k]? = some z → (c :: ss)[k]? = some a →
      ss[k]? = some b → y.stamp = some tk →
      ∃ u, InForce rnd us a u ∧ z.value = (f.evaluate y ⟨u.value, some u.stamp⟩ (b - tk)).value
  | [], c, idx, x, xs, t, hx, I, h => by
    intro k y z a b tk _ _ _ hb
    simp at hb
  | s :: ss, c, idx, x, xs, t, hx, I, h => by
    unfold batchPropagate at h
    obtain ⟨u, h1, h⟩ := bind_ok h
    rw [stampDiff_ok hx, ok_bindE] at h
    obtain ⟨-, h2, h⟩ := bind_ok h
    rw [batchAdvance_ok hf hx, ok_bindE] at h
    obtain ⟨nxt, h3, h⟩ := bind_ok h
    obtain ⟨rest, h4, h⟩ := bind_ok h
    cases h
    have ih := batchPropagate_inputs hf (t := t + (s - t)) rfl (I.step (pyGet_iff.1 h3)) h4
    rintro (_ | k) y z a b tk hy hz ha hb hyt
    · simp only [List.getElem?_cons_zero, Option.some.injEq] at hy hz ha hb
      subst hy hz ha hb
      rw [hx] at hyt
      cases hyt
      exact ⟨u, I.inForce (pyGet_iff.1 h1), rfl⟩
    · exact ih k y z a b tk (by simpa using hy) (by simpa using hz) (by simpa using ha) (by simpa using hb) hyt

theorem loopInv_start {rnd : ℝ → ℝ} {us : List (StInp U)} {ys : List (StMeas V n)} {s0 : ℝ} {ss : List ℝ}
    (hst : batchStamps rnd us ys = s0 :: ss) (hne : us ≠ [])
    (hinc : (us.map fun u => rnd u.stamp).Pairwise (· < ·)) :
    LoopInv (us.map fun u => rnd u.stamp) s0 ss 0 := by
  have hsort : (s0 :: ss).Pairwise (· < ·) := by rw [← hst]; exact npUnique_sorted _
  have hmem : ∀ t ∈ us.map fun u => rnd u.stamp, t ∈ s0 :: ss := by
    intro t ht
    obtain ⟨u, hu, rfl⟩ := List.mem_map.1 ht
    rw [← hst]
    exact mem_batchStamps.2 (Or.inl ⟨u, hu, rfl⟩)
  refine ⟨hsort, hinc, ?_, by simpa [List.length_pos_iff] using hne, Or.inl rfl, ?_⟩
  · intro t ht hlt
    rcases List.mem_cons.1 (hmem t ht) with h | h
    · exact absurd hlt (by rw [h]; exact lt_irrefl _)
    · exact h
  · intro j t hj hjt
    have hjl : j < (us.map fun u => rnd u.stamp).length := by
      by_contra hh
      rw [List.getElem?_eq_none (by omega)] at hjt
      cases hjt
    have h0 := List.pairwise_iff_getElem.1 hinc 0 j (by omega) hjl hj
    rw [List.getElem?_eq_getElem hjl] at hjt
    cases hjt
    refine lt_of_le_of_lt ?_ h0
    rcases List.mem_cons.1 (hmem _ (List.getElem_mem (show 0 < _ by omega))) with h | h
    · exact h.symm.le
    · exact ((List.pairwise_cons.1 hsort).1 _ h).le

/-- **C46, initial estimate.** If no two inputs have the same (rounded) stamp, variable `k + 1` is variable `k`
propagated to its stamp by the input in force at stamp `k`. -/
theorem C46_initial_estimate (f : ProcModel V U n) (hf : KeepsStamp f) (rnd : ℝ → ℝ) (x0 : St V) (t0 : ℝ)
    (h0 : x0.stamp = some t0) (P0 : Mat n n) (inputs : List (StInp U)) (meas : List (StMeas V n))
    (g : BatchGraph V U n) (h : batchGraph f rnd x0 P0 inputs meas = .ok g)
    (us : List (StInp U)) (hus : us = batchUsed StInp.stamp t0 inputs)
    (ys : List (StMeas V n)) (hys : ys = batchUsed StMeas.stamp t0 meas)
    (hne : us ≠ []) (hinc : (us.map fun u => rnd u.stamp).Pairwise (· < ·))
    (stamps : List ℝ) (hs : stamps.Pairwise (· < ·))
    (hm : ∀ t, t ∈ stamps ↔ (∃ u ∈ us, rnd u.stamp = t) ∨ ∃ y ∈ ys, rnd y.stamp = t)
    (k : ℕ) (y z : St V) (a b tk : ℝ) (hy : g.vars[k]? = some y) (hz : g.vars[k + 1]? = some z)
    (ha : stamps[k]? = some a) (hb : stamps[k + 1]? = some b) (htk : y.stamp = some tk) :
    ∃ u, InForce rnd us a u ∧ z.value = (f.evaluate y ⟨u.value, some u.stamp⟩ (b - tk)).value := by
  obtain ⟨s0, ss, xs, ps, ms, h1, h2, h3, h4, rfl⟩ := batchGraph_parts h0 h
  subst hus hys
  have hsort : (s0 :: ss).Pairwise (· < ·) := by rw [← h1]; exact npUnique_sorted _
  have heq : stamps = s0 :: ss := by
    refine List.Perm.eq_of_pairwise (le := (· < ·)) (fun a b _ _ h1 h2 => absurd h1 (lt_asymm h2)) hs hsort ?_
    rw [List.perm_ext_iff_of_nodup (hs.imp fun h => ne_of_lt h) (hsort.imp fun h => ne_of_lt h)]
    intro t
    rw [hm, ← h1, mem_batchStamps]
  subst heq
  exact batchPropagate_inputs hf h0 (loopInv_start h1 hne hinc) h2 k y z a b tk hy (by simpa using hz) ha
    (by simpa using hb) htk

theorem batchPropagate_total {f : ProcModel V U n} (hf : KeepsStamp f) {rnd : ℝ → ℝ} {us : List (StInp U)}
    (h2 : 2 ≤ us.length) {u : StInp U} (hu : us.getLast? = some u) :
    ∀ {ss : List ℝ} {c : ℝ} {idx : ℕ} {x : St V} {t : ℝ}, x.stamp = some t → (∀ s ∈ ss, t ≤ s) →
    LoopInv (us.map fun u => rnd u.stamp) c ss idx → (∀ s ∈ ss, s ≤ rnd u.stamp) →
    ∃ xs, batchPropagate f us (us.map fun u => rnd u.stamp) ss idx x = .ok xs
  | [], c, idx, x, t, hx, htc, I, hl => ⟨[], rfl⟩
  | s :: ss, c, idx, x, t, hx, htc, I, hl => by
    have hidx : idx < us.length := by simpa using I.lt
    have hcs : c < s := (List.pairwise_cons.1 I.sorted).1 s (by simp)
    have hlast : us[us.length - 1]? = some u := by rw [← List.getLast?_eq_getElem?]; exact hu
    have hnext : idx + 1 < us.length := by
      by_contra hh
      have he : idx = us.length - 1 := by omega
      rcases I.past with h | ⟨t', h1, h3⟩
      · omega
      · rw [List.getElem?_map, he, hlast] at h1
        simp only [Option.map_some, Option.some.injEq] at h1
        have := hl s (by simp)
        linarith
    have hn : (us.map fun u => rnd u.stamp)[idx + 1]? = some (rnd us[idx + 1].stamp) := by
      rw [List.getElem?_map, List.getElem?_eq_getElem hnext]; rfl
    obtain ⟨rest, hr⟩ := batchPropagate_total hf h2 hu (ss := ss) (c := s) (t := t + (s - t))
      (x := ⟨(f.evaluate x ⟨us[idx].value, some us[idx].stamp⟩ (s - t)).value, some (t + (s - t))⟩) rfl
      (fun s' hs' => by
        have := (List.pairwise_cons.1 (List.pairwise_cons.1 I.sorted).2).1 s' hs'
        linarith) (I.step hn) (fun s' hs' => hl s' (by simp [hs']))
    unfold batchPropagate
    rw [pyGet_ok hidx, ok_bindE, stampDiff_ok hx, ok_bindE]
    have hdt : batchCheckDt (s - t) = .ok () := by unfold batchCheckDt; rw [if_neg (by linarith [htc s (by simp)])]
    rw [hdt, ok_bindE, batchAdvance_ok hf hx, ok_bindE, pyGet_iff.2 hn, ok_bindE, hr, ok_bindE]
    exact ⟨_, rfl⟩

theorem batchProcess_total {stamps : List ℝ} (hne : stamps ≠ []) : ∀ us : List (StInp U),
    ∃ ps : List (BFactor V U n), batchProcess stamps us = .ok ps
  | [] => ⟨[], by simp [batchProcess]⟩
  | [u] => ⟨[], by simp [batchProcess]⟩
  | u :: u' :: us => by
    obtain ⟨ps, h⟩ := batchProcess_total hne (u' :: us)
    obtain ⟨k1, h1, -⟩ := C49_nearest stamps hne u.stamp
    obtain ⟨k2, h2, -⟩ := C49_nearest stamps hne u'.stamp
    simp only [batchProcess]
    rw [h1, ok_bindE, h2, ok_bindE, h, ok_bindE]
    exact ⟨_, rfl⟩

theorem batchMeas_total {stamps : List ℝ} (hne : stamps ≠ []) : ∀ ys : List (StMeas V n),
    ∃ ms : List (BFactor V U n), batchMeas stamps ys = .ok ms
  | [] => ⟨[], by simp [batchMeas]⟩
  | y :: ys => by
    obtain ⟨ms, h⟩ := batchMeas_total hne ys
    obtain ⟨k1, h1, -⟩ := C49_nearest stamps hne y.stamp
    simp only [batchMeas]
    rw [h1, ok_bindE, h, ok_bindE]
    exact ⟨_, rfl⟩

/-- **C46, the construction succeeds** if there are at least two inputs with distinct stamps, at most one of the stamps of the data that are
used is older than `x0`, and no measurement is later than the last input. -/
theorem C46_one_older (f : ProcModel V U n) (hf : KeepsStamp f) (rnd : ℝ → ℝ) (x0 : St V) (t0 : ℝ)
    (h0 : x0.stamp = some t0) (P0 : Mat n n) (inputs : List (StInp U)) (meas : List (StMeas V n))
    (us : List (StInp U)) (hus : us = batchUsed StInp.stamp t0 inputs)
    (ys : List (StMeas V n)) (hys : ys = batchUsed StMeas.stamp t0 meas)
    (h2 : 2 ≤ us.length) (hinc : (us.map fun u => rnd u.stamp).Pairwise (· < ·))
    (hold : ∀ a b, ((∃ u ∈ us, rnd u.stamp = a) ∨ ∃ y ∈ ys, rnd y.stamp = a) →
      ((∃ u ∈ us, rnd u.stamp = b) ∨ ∃ y ∈ ys, rnd y.stamp = b) → a < b → t0 ≤ b)
    (hlate : ∀ y ∈ ys, ∃ u ∈ us, rnd y.stamp ≤ rnd u.stamp) :
    ∃ g, batchGraph f rnd x0 P0 inputs meas = .ok g := by
  subst hus hys
  set us := batchUsed StInp.stamp t0 inputs with hus
  set ys := batchUsed StMeas.stamp t0 meas with hys
  have hne : us ≠ [] := by rintro h; rw [h] at h2; simp at h2
  cases hst : batchStamps rnd us ys with
  | nil =>
    obtain ⟨u, hu⟩ := List.exists_mem_of_ne_nil _ hne
    have : rnd u.stamp ∈ batchStamps rnd us ys := mem_batchStamps.2 (Or.inl ⟨u, hu, rfl⟩)
    rw [hst] at this
    cases this
  | cons s0 ss =>
    have hmem : ∀ t ∈ s0 :: ss, (∃ u ∈ us, rnd u.stamp = t) ∨ ∃ y ∈ ys, rnd y.stamp = t := by
      intro t ht
      rw [← hst] at ht
      exact mem_batchStamps.1 ht
    have hlast : us.getLast? = some (us.getLast hne) := List.getLast?_eq_some_getLast hne
    have hle : ∀ u ∈ us, rnd u.stamp ≤ rnd (us.getLast hne).stamp := by
      intro u hu
      obtain ⟨i, hi, rfl⟩ := List.getElem_of_mem hu
      rw [List.getLast_eq_getElem]
      rcases Nat.lt_or_eq_of_le (Nat.le_sub_one_of_lt hi) with h | h
      · have := List.pairwise_iff_getElem.1 hinc i (us.length - 1) (by simpa using hi) (by simp; omega) h
        simp only [List.getElem_map] at this
        exact this.le
      · simp only [h]; exact le_refl _
    have hbound : ∀ s ∈ ss, s ≤ rnd (us.getLast hne).stamp := by
      intro s hs
      rcases hmem s (by simp [hs]) with ⟨u, hu, rfl⟩ | ⟨y, hy, rfl⟩
      · exact hle u hu
      · obtain ⟨u, hu, h⟩ := hlate y hy
        exact h.trans (hle u hu)
    have hsort : (s0 :: ss).Pairwise (· < ·) := by rw [← hst]; exact npUnique_sorted _
    have ht0 : ∀ s ∈ ss, t0 ≤ s := fun s hs =>
      hold s0 s (hmem s0 (by simp)) (hmem s (by simp [hs])) ((List.pairwise_cons.1 hsort).1 s hs)
    obtain ⟨xs, hx⟩ := batchPropagate_total hf h2 hlast h0 ht0 (loopInv_start hst hne hinc) hbound
    obtain ⟨ps, hp⟩ := batchProcess_total (V := V) (n := n) (stamps := s0 :: ss) (by simp) us
    obtain ⟨ms, hms⟩ := batchMeas_total (U := U) (stamps := s0 :: ss) (by simp) ys
    unfold batchGraph
    rw [h0]
    simp only
    rw [← hus, ← hys, hst]
    simp only [batchStates]
    rw [hx, ok_bindE]
    simp only [pure, Except.pure]
    rw [ok_bindE, hp, ok_bindE, hms, ok_bindE]
    exact ⟨_, rfl⟩

/-- **C46, the construction succeeds** if there are at least two inputs with distinct stamps, no data is older than
`x0`, and no measurement is later than the last input. -/
theorem C46_succeeds (f : ProcModel V U n) (hf : KeepsStamp f) (rnd : ℝ → ℝ) (x0 : St V) (t0 : ℝ)
    (h0 : x0.stamp = some t0) (P0 : Mat n n) (inputs : List (StInp U)) (meas : List (StMeas V n))
    (us : List (StInp U)) (hus : us = batchUsed StInp.stamp t0 inputs)
    (ys : List (StMeas V n)) (hys : ys = batchUsed StMeas.stamp t0 meas)
    (h2 : 2 ≤ us.length) (hinc : (us.map fun u => rnd u.stamp).Pairwise (· < ·))
    (hold : (∀ u ∈ us, t0 ≤ rnd u.stamp) ∧ ∀ y ∈ ys, t0 ≤ rnd y.stamp)
    (hlate : ∀ y ∈ ys, ∃ u ∈ us, rnd y.stamp ≤ rnd u.stamp) :
    ∃ g, batchGraph f rnd x0 P0 inputs meas = .ok g := by
  refine C46_one_older f hf rnd x0 t0 h0 P0 inputs meas us hus ys hys h2 hinc (fun a b _ hb _ => ?_) hlate
  rcases hb with ⟨u, hu, rfl⟩ | ⟨y, hy, rfl⟩
  · exact hold.1 u hu
  · exact hold.2 y hy

/-- **C46, it raises** `RuntimeError` if two of the stamps of the data that are used are older than `x0`. (That can only happen if all inputs
or all measurements are older: otherwise older data are dropped.) -/
theorem C46_two_older_raises (f : ProcModel V U n) (rnd : ℝ → ℝ) (x0 : St V) (t0 : ℝ)
    (h0 : x0.stamp = some t0) (P0 : Mat n n) (inputs : List (StInp U)) (meas : List (StMeas V n))
    (us : List (StInp U)) (hus : us = batchUsed StInp.stamp t0 inputs)
    (ys : List (StMeas V n)) (hys : ys = batchUsed StMeas.stamp t0 meas) (hne : us ≠ []) (a b : ℝ)
    (ha : (∃ u ∈ us, rnd u.stamp = a) ∨ ∃ y ∈ ys, rnd y.stamp = a)
    (hb : (∃ u ∈ us, rnd u.stamp = b) ∨ ∃ y ∈ ys, rnd y.stamp = b) (hab : a < b) (hold : b < t0) :
    batchGraph f rnd x0 P0 inputs meas = .error .runtimeError := by
  subst hus hys
  set us := batchUsed StInp.stamp t0 inputs with hus
  set ys := batchUsed StMeas.stamp t0 meas with hys
  have hma : a ∈ batchStamps rnd us ys := mem_batchStamps.2 ha
  have hmb : b ∈ batchStamps rnd us ys := mem_batchStamps.2 hb
  have hsort : (batchStamps rnd us ys).Pairwise (· < ·) := npUnique_sorted _
  cases hst : batchStamps rnd us ys with
  | nil => rw [hst] at hma; cases hma
  | cons s0 ss =>
    rw [hst] at hma hmb hsort
    have hs := List.pairwise_cons.1 hsort
    cases ss with
    | nil =>
      simp only [List.mem_singleton] at hma hmb
      linarith
    | cons s1 ss =>
      have hle : s1 ≤ b := by
        have h1 : b ∈ s1 :: ss := by
          rcases List.mem_cons.1 hmb with h | h
          · rcases List.mem_cons.1 hma with h' | h'
            · linarith
            · have := hs.1 a h'
              linarith
          · exact h
        rcases List.mem_cons.1 h1 with h | h
        · exact h.symm.le
        · exact ((List.pairwise_cons.1 hs.2).1 b h).le
      have hlen : 0 < us.length := List.length_pos_iff.2 hne
      have hdt : batchCheckDt (s1 - t0) = .error .runtimeError := by unfold batchCheckDt; rw [if_pos (by linarith)]
      have hp : batchPropagate f us (us.map fun u => rnd u.stamp) (s1 :: ss) 0 x0 = .error .runtimeError := by
        unfold batchPropagate
        rw [pyGet_ok hlen, ok_bindE, stampDiff_ok h0, ok_bindE, hdt]
        rfl
      unfold batchGraph
      rw [h0]
      simp only
      rw [← hus, ← hys, hst]
      simp only [batchStates]
      rw [hp]
      rfl

theorem batchPropagate_late {f : ProcModel V U n} (hf : KeepsStamp f) {rnd : ℝ → ℝ} {us : List (StInp U)} {m : ℝ}
    (hm : ∀ u ∈ us, rnd u.stamp < m) :
    ∀ {ss : List ℝ} {c : ℝ} {idx : ℕ} {x : St V} {t : ℝ}, x.stamp = some t → t ≤ c →
    LoopInv (us.map fun u => rnd u.stamp) c ss idx → m ∈ ss →
    batchPropagate f us (us.map fun u => rnd u.stamp) ss idx x = .error .indexError
  | [], c, idx, x, t, hx, htc, I, hl => by cases hl
  | s :: ss, c, idx, x, t, hx, htc, I, hl => by
    have hidx : idx < us.length := by simpa using I.lt
    have hcs : c < s := (List.pairwise_cons.1 I.sorted).1 s (by simp)
    unfold batchPropagate
    rw [pyGet_ok hidx, ok_bindE, stampDiff_ok hx, ok_bindE]
    have hdt : batchCheckDt (s - t) = .ok () := by unfold batchCheckDt; rw [if_neg (by linarith)]
    rw [hdt, ok_bindE, batchAdvance_ok hf hx, ok_bindE]
    by_cases hnext : idx + 1 < us.length
    · have hn : (us.map fun u => rnd u.stamp)[idx + 1]? = some (rnd us[idx + 1].stamp) := by
        rw [List.getElem?_map, List.getElem?_eq_getElem hnext]; rfl
      have hcn : c < rnd us[idx + 1].stamp := I.future _ _ (by omega) hn
      have hsn : s ≤ rnd us[idx + 1].stamp := by
        have hss := List.pairwise_cons.1 (List.pairwise_cons.1 I.sorted).2
        rcases List.mem_cons.1 (I.rest _ (List.mem_of_getElem? hn) hcn) with h | h
        · exact h.symm.le
        · exact (hss.1 _ h).le
      have hmn := hm _ (List.getElem_mem hnext)
      have hmss : m ∈ ss := by
        rcases List.mem_cons.1 hl with h | h
        · linarith
        · exact h
      rw [pyGet_iff.2 hn, ok_bindE, batchPropagate_late hf hm (t := t + (s - t)) rfl (by linarith) (I.step hn) hmss]
      rfl
    · rw [pyGet_err (by simpa using hnext)]
      rfl

/-- **C47.** A measurement stamped after the last input makes `solve` raise `IndexError`. (Schedules with one input
at each time, nothing older than `x0`.) -/
theorem C47_late_measurement_raises (f : ProcModel V U n) (hf : KeepsStamp f) (rnd : ℝ → ℝ) (x0 : St V) (t0 : ℝ)
    (h0 : x0.stamp = some t0) (P0 : Mat n n) (inputs : List (StInp U)) (meas : List (StMeas V n))
    (us : List (StInp U)) (hus : us = batchUsed StInp.stamp t0 inputs)
    (ys : List (StMeas V n)) (hys : ys = batchUsed StMeas.stamp t0 meas)
    (hne : us ≠ []) (hinc : (us.map fun u => rnd u.stamp).Pairwise (· < ·))
    (hold : (∀ u ∈ us, t0 ≤ rnd u.stamp) ∧ ∀ y ∈ ys, t0 ≤ rnd y.stamp)
    (y : StMeas V n) (hy : y ∈ ys) (hlate : ∀ u ∈ us, rnd u.stamp < rnd y.stamp)
    (o : StateOps V n) (cfg : ProbCfg) :
    batchSolve o f rnd cfg x0 P0 inputs meas = .error .indexError := by
  subst hus hys
  set us := batchUsed StInp.stamp t0 inputs with hus
  set ys := batchUsed StMeas.stamp t0 meas with hys
  have hym : rnd y.stamp ∈ batchStamps rnd us ys := mem_batchStamps.2 (Or.inr ⟨y, hy, rfl⟩)
  suffices h : batchGraph f rnd x0 P0 inputs meas = .error .indexError by
    unfold batchSolve; rw [h]; rfl
  cases hst : batchStamps rnd us ys with
  | nil => rw [hst] at hym; cases hym
  | cons s0 ss =>
    have hmem : ∀ t ∈ s0 :: ss, (∃ u ∈ us, rnd u.stamp = t) ∨ ∃ y ∈ ys, rnd y.stamp = t := by
      intro t ht
      rw [← hst] at ht
      exact mem_batchStamps.1 ht
    have ht0 : t0 ≤ s0 := by
      rcases hmem s0 (by simp) with ⟨u, hu, h⟩ | ⟨y, hy, h⟩
      · rw [← h]; exact hold.1 u hu
      · rw [← h]; exact hold.2 y hy
    have hmss : rnd y.stamp ∈ ss := by
      rw [hst] at hym
      rcases List.mem_cons.1 hym with h | h
      · exfalso
        obtain ⟨u, hu⟩ := List.exists_mem_of_ne_nil _ hne
        have h1 := hlate u hu
        have h2 : rnd u.stamp ∈ s0 :: ss := by rw [← hst]; exact mem_batchStamps.2 (Or.inl ⟨u, hu, rfl⟩)
        have hsort : (s0 :: ss).Pairwise (· < ·) := by rw [← hst]; exact npUnique_sorted _
        rcases List.mem_cons.1 h2 with h3 | h3
        · linarith
        · have := (List.pairwise_cons.1 hsort).1 _ h3
          linarith
      · exact h
    have := batchPropagate_late hf hlate h0 ht0 (loopInv_start hst hne hinc) hmss
    unfold batchGraph
    rw [h0]
    simp only
    rw [← hus, ← hys, hst]
    simp only [batchStates]
    rw [this]
    rfl

end Verif
