import Verif.Lemmas.ProbOrder2
import Verif.Props.RunFilter
import Verif.Model.BatchEst
import Verif.Props.LinearProblem

/-!
Property theorems: the order in which data, residuals and variables are given does not matter (C97).
-/

set_option linter.unusedVariables false
set_option linter.unusedSectionVars false

namespace Verif

open Matrix

variable {K S : Type} [DecidableEq K]

/-! ### Logs -/

section Logs

open Classical in
/-- Specification: two logs have the same entries, and entries with equal stamps come in the same order. -/
def SameLog {α : Type} (stamp : α → ℝ) (l l' : List α) : Prop :=
  ∀ t : ℝ, l.filter (fun a => decide (stamp a = t)) = l'.filter (fun a => decide (stamp a = t))

open Classical in
theorem sortByStamp_filter {α : Type} (stamp : α → ℝ) (l : List α) (t : ℝ) :
    (sortByStamp stamp l).filter (fun a => decide (stamp a = t)) = l.filter (fun a => decide (stamp a = t)) := by
  refine ((List.Sublist.eq_of_length ?_ ?_)).symm
  · have h1 : TimeSorted stamp (l.filter fun a => decide (stamp a = t)) := by
      refine List.pairwise_of_forall_mem_list fun a ha b hb => ?_
      have e1 : stamp a = t := by simpa using (List.mem_filter.1 ha).2
      have e2 : stamp b = t := by simpa using (List.mem_filter.1 hb).2
      rw [e1, e2]
    have h2 := (sortByStamp_stable stamp l _ h1 List.filter_sublist).filter (fun a => decide (stamp a = t))
    rwa [List.filter_filter, show (fun a => decide (stamp a = t) && decide (stamp a = t)) = (fun a => decide (stamp a = t)) from by
      funext a; simp] at h2
  · exact (((sortByStamp_perm stamp l).filter _).length_eq).symm

open Classical in
theorem sorted_eq_of_filters {α : Type} (stamp : α → ℝ) : ∀ (l l' : List α), TimeSorted stamp l → TimeSorted stamp l' →
    SameLog stamp l l' → l = l'
  | [], [], _, _, _ => rfl
  | [], b :: l', _, _, h => by have := h (stamp b); simp at this
  | a :: l, [], _, _, h => by have := h (stamp a); simp at this
  | a :: l, b :: l', h1, h2, h => by
    have e1 : stamp a ≤ stamp b := by
      have hb : b ∈ (a :: l).filter (fun x => decide (stamp x = stamp b)) := by rw [h]; simp
      rcases List.mem_cons.1 (List.mem_filter.1 hb).1 with e | hm
      · rw [e]
      · exact (List.pairwise_cons.1 h1).1 b hm
    have e2 : stamp b ≤ stamp a := by
      have ha : a ∈ (b :: l').filter (fun x => decide (stamp x = stamp a)) := by rw [← h]; simp
      rcases List.mem_cons.1 (List.mem_filter.1 ha).1 with e | hm
      · rw [e]
      · exact (List.pairwise_cons.1 h2).1 a hm
    have e : stamp a = stamp b := le_antisymm e1 e2
    have h3 := h (stamp a)
    rw [List.filter_cons_of_pos (by simp), List.filter_cons_of_pos (by simp [e])] at h3
    have hab : a = b := (List.cons.inj h3).1
    subst hab
    congr 1
    refine sorted_eq_of_filters stamp l l' (List.pairwise_cons.1 h1).2 (List.pairwise_cons.1 h2).2 fun t => ?_
    have h4 := h t
    by_cases ht : stamp a = t
    · rw [List.filter_cons_of_pos (by simp [ht]), List.filter_cons_of_pos (by simp [ht])] at h4
      exact (List.cons.inj h4).2
    · rwa [List.filter_cons_of_neg (by simp [ht]), List.filter_cons_of_neg (by simp [ht])] at h4

theorem SameLog.sort {α : Type} {stamp : α → ℝ} {l l' : List α} (h : SameLog stamp l l') : sortByStamp stamp l = sortByStamp stamp l' := by
  refine sorted_eq_of_filters stamp _ _ (sortByStamp_sorted _ _) (sortByStamp_sorted _ _) fun t => ?_
  rw [sortByStamp_filter, sortByStamp_filter]
  exact h t

open Classical in
/-- Any reordering of a log without equal stamps is the same log. -/
theorem sameLog_of_perm {α : Type} {stamp : α → ℝ} {l l' : List α} (h : l.Perm l') (hd : (l.map stamp).Nodup) : SameLog stamp l l' := by
  intro t
  have h1 := h.filter (fun a => decide (stamp a = t))
  have key : ∀ {m : List α}, (m.map stamp).Nodup → (m.filter (fun a => decide (stamp a = t))).length ≤ 1 := by
    intro m hm
    have e : (m.filter (fun a => decide (stamp a = t))).map stamp = List.replicate (m.filter (fun a => decide (stamp a = t))).length t := by
      refine List.eq_replicate_iff.2 ⟨by simp, fun x hx => ?_⟩
      obtain ⟨a, ha, rfl⟩ := List.mem_map.1 hx
      simpa using (List.mem_filter.1 ha).2
    have := (List.filter_sublist (l := m) (p := fun a => decide (stamp a = t))).map stamp |>.nodup hm
    rw [e] at this
    exact List.nodup_replicate.1 this
  have h2 := key hd
  generalize l.filter (fun a => decide (stamp a = t)) = x at h1 h2
  match x, h1, h2 with
  | [], h1, _ => exact h1.nil_eq
  | [a], h1, _ => exact (List.perm_singleton.1 h1.symm).symm

variable {X I Y : Type}

/-- **C97, `run_filter`.** The run does not depend on the order in which inputs and measurements are listed, as long as entries with
equal stamps keep their order (so: not at all, when the stamps are distinct). -/
theorem C97_run_filter (f : FilterApi X I Y) (x0 : X) (ins ins' : List I) (meas meas' : List Y) (hi : SameLog f.istamp ins ins')
    (hm : SameLog f.ystamp meas meas') : runFilter f x0 ins' meas' = runFilter f x0 ins meas := by
  unfold runFilter
  rw [hi.sort, hm.sort]

/-- **C97, `run_imm_filter`.** -/
theorem C97_run_imm (f : FilterApi X I Y) (x0 : X) (ins ins' : List I) (meas meas' : List Y) (hi : SameLog f.istamp ins ins')
    (hm : SameLog f.ystamp meas meas') : runImm f x0 ins' meas' = runImm f x0 ins meas := by
  unfold runImm
  rw [hi.sort, hm.sort]

/-- **C97, `BatchEstimator.solve`.** -/
theorem C97_batch {V U : Type} {n : ℕ} (o : StateOps V n) (f : ProcModel V U n) (rnd : ℝ → ℝ) (cfg : ProbCfg) (x0 : St V) (P0 : Mat n n)
    (ins ins' : List (StInp U)) (meas meas' : List (StMeas V n)) (hi : SameLog StInp.stamp ins ins')
    (hm : SameLog StMeas.stamp meas meas') : batchSolve o f rnd cfg x0 P0 ins' meas' = batchSolve o f rnd cfg x0 P0 ins meas := by
  have e : batchGraph f rnd x0 P0 ins' meas' = batchGraph f rnd x0 P0 ins meas := by
    unfold batchGraph batchUsed
    rw [hi.sort, hm.sort]
  unfold batchSolve
  rw [e]

/-- Three entries out of order, two of them with equal stamps. -/
example : SameLog (fun p : ℝ × ℕ => p.1) [(2, 0), (1, 1), (2, 2)] [(1, 1), (2, 0), (2, 2)] := by
  intro t
  by_cases h1 : (1 : ℝ) = t
  · subst h1; simp
  · by_cases h2 : (2 : ℝ) = t
    · subst h2; simp
    · simp [h1, h2]

end Logs

/-! ### Columns -/

/-- The slices of the variables cover the columns, without overlap. -/
structure Table (vs : List (K × Slice)) (n : ℕ) : Prop where
  fits : ∀ k s, vs.lookup k = some s → s.start ≤ s.stop ∧ s.stop ≤ n
  cover : ∀ c, c < n → ∃ k s, vs.lookup k = some s ∧ s.start ≤ c ∧ c < s.stop
  disj : ∀ k k' s s' c, vs.lookup k = some s → vs.lookup k' = some s' → s.start ≤ c → c < s.stop → s'.start ≤ c → c < s'.stop → k = k'

theorem corr_exists {n n' : ℕ} {vs vs' : List (K × Slice)} (T : Table vs n) (T' : Table vs' n') (hn : n = n')
    (has : ∀ k s, vs.lookup k = some s → ∃ s', vs'.lookup k = some s' ∧ s'.stop - s'.start = s.stop - s.start)
    (has' : ∀ k s', vs'.lookup k = some s' → ∃ s, vs.lookup k = some s) : ∃ σ : Fin n ≃ Fin n', Corr vs vs' σ := by
  have hex : ∀ c : Fin n, ∃ c' : Fin n', ∃ k s s', vs.lookup k = some s ∧ vs'.lookup k = some s' ∧ s.start ≤ c.val ∧ c.val < s.stop ∧
      c'.val = s'.start + (c.val - s.start) := by
    intro c
    obtain ⟨k, s, h1, h2, h3⟩ := T.cover c.val c.2
    obtain ⟨s', h4, h5⟩ := has k s h1
    have := T'.fits k s' h4
    exact ⟨⟨s'.start + (c.val - s.start), by omega⟩, k, s, s', h1, h4, h2, h3, rfl⟩
  choose f hf using hex
  have hinj : Function.Injective f := by
    intro c d hcd
    obtain ⟨k, s, s', a1, a2, a3, a4, a5⟩ := hf c
    obtain ⟨k1, s1, s1', b1, b2, b3, b4, b5⟩ := hf d
    rw [hcd] at a5
    have l1 := has k s a1
    rw [a2] at l1
    obtain ⟨_, e1, l1⟩ := l1
    cases e1
    have l2 := has k1 s1 b1
    rw [b2] at l2
    obtain ⟨_, e2, l2⟩ := l2
    cases e2
    have hk : k = k1 := T'.disj k k1 s' s1' (f d).val a2 b2 (by omega) (by omega) (by omega) (by omega)
    subst hk
    rw [a1] at b1
    cases b1
    rw [a2] at b2
    cases b2
    apply Fin.ext
    omega
  have hbij : Function.Bijective f := by
    subst hn
    exact Finite.injective_iff_bijective.1 hinj
  refine ⟨Equiv.ofBijective f hbij, ⟨fun k s h => ?_, has', T.fits, T'.fits, fun k s s' h1 h2 => ?_, fun k s s' h1 h2 c => ?_⟩⟩
  · obtain ⟨s', h, -⟩ := has k s h
    exact ⟨s', h⟩
  · obtain ⟨s'', h3, h4⟩ := has k s h1
    rw [h2] at h3
    cases h3
    exact h4
  · have hl : s'.stop - s'.start = s.stop - s.start := by
      obtain ⟨s'', h3, h4⟩ := has k s h1
      rw [h2] at h3
      cases h3
      exact h4
    obtain ⟨k1, s1, s1', a1, a2, a3, a4, a5⟩ := hf c
    have hl1 : s1'.stop - s1'.start = s1.stop - s1.start := by
      obtain ⟨s'', h3, h4⟩ := has k1 s1 a1
      rw [a2] at h3
      cases h3
      exact h4
    have ef : (Equiv.ofBijective f hbij) c = f c := rfl
    rw [ef]
    by_cases hk : k = k1
    · subst hk
      rw [h1] at a1
      cases a1
      rw [h2] at a2
      cases a2
      refine ⟨⟨fun _ => ⟨by omega, by omega⟩, fun _ => ⟨a3, a4⟩⟩, fun _ _ => by omega⟩
    · have n1 : ¬ (s.start ≤ c.val ∧ c.val < s.stop) := fun z => hk (T.disj k k1 s s1 c.val h1 a1 z.1 z.2 a3 a4)
      have n2 : ¬ (s'.start ≤ (f c).val ∧ (f c).val < s'.stop) := fun z =>
        hk (T'.disj k k1 s' s1' (f c).val h2 a2 z.1 z.2 (by omega) (by omega))
      exact ⟨⟨fun z => absurd z n1, fun z => absurd z n2⟩, fun z1 z2 => absurd ⟨z1, z2⟩ n1⟩

theorem colSlices_lookup {o : VarOps S} {const : List K} {k : K} {s : Slice} : ∀ (l : List (K × S)) (idx : ℕ) (d : List (K × Slice)),
    (colSlices o const l idx d).1.lookup k = some s → d.lookup k = some s ∨ ∃ x, (k, x) ∈ freeVars const l
  | [], idx, d, h => Or.inl h
  | (q, x) :: l, idx, d, h => by
    unfold colSlices at h
    by_cases hq : q ∈ const
    · rw [if_pos hq] at h
      rcases colSlices_lookup l _ _ h with h | ⟨y, hy⟩
      · exact Or.inl h
      · exact Or.inr ⟨y, by unfold freeVars at hy ⊢; simp only [List.mem_filter, List.mem_cons] at hy ⊢; exact ⟨Or.inr hy.1, hy.2⟩⟩
    · rw [if_neg hq] at h
      rcases colSlices_lookup l _ _ h with h | ⟨y, hy⟩
      · rw [dictSet_get] at h
        by_cases hk : k = q
        · subst hk
          exact Or.inr ⟨x, by unfold freeVars; simp [hq]⟩
        · rw [if_neg hk] at h
          exact Or.inl h
      · exact Or.inr ⟨y, by unfold freeVars at hy ⊢; simp only [List.mem_filter, List.mem_cons] at hy ⊢; exact ⟨Or.inr hy.1, hy.2⟩⟩

/-- The table of a problem that has not been solved before. -/
theorem started_table {o : VarOps S} {P P1 : Prob K S} (h : P.started o = .ok P1) (hf : P.varSlices = [])
    (hn : (P.varsInit.map Prod.fst).Nodup) : Table P1.varSlices P1.sizeState ∧
      (∀ k s, P1.varSlices.lookup k = some s → ∃ x, (k, x) ∈ freeVars P.constKeys P.varsInit ∧ s.stop - s.start = o.dof x) ∧
      (∀ k x, (k, x) ∈ freeVars P.constKeys P.varsInit → ∃ s, P1.varSlices.lookup k = some s ∧ s.stop - s.start = o.dof x) := by
  obtain ⟨c1, c2, c3⟩ := C37_columns o P P1 h hn
  obtain ⟨-, h2, h3⟩ := started_slices h
  obtain ⟨d1, d2⟩ := colSlices_spec (o := o) (const := P.constKeys) P.varsInit 0 P.varSlices hn
  simp only [Nat.zero_add] at d1 d2
  have hfree : ∀ k s, P1.varSlices.lookup k = some s → ∃ x, (k, x) ∈ freeVars P.constKeys P.varsInit := by
    intro k s hs
    rw [h2, hf] at hs
    rcases colSlices_lookup _ _ _ hs with e | e
    · simp at e
    · exact e
  have hmem : ∀ k x, (k, x) ∈ freeVars P.constKeys P.varsInit → ∃ s, P1.varSlices.lookup k = some s ∧ s.stop = s.start + o.dof x ∧
      s.stop ≤ P1.sizeState := by
    intro k x hx
    obtain ⟨j, hj, hj'⟩ := List.getElem_of_mem hx
    have hjj : (freeVars P.constKeys P.varsInit)[j]? = some (k, x) := by rw [List.getElem?_eq_getElem hj, hj']
    obtain ⟨s, e1, e2, -, -⟩ := c1 j k x hjj
    refine ⟨s, e1, e2, ?_⟩
    have := d2 j k x hjj
    rw [← h2, e1] at this
    cases this
    rw [h3, d1]
    exact pre_le_sum _ _
  refine ⟨⟨fun k s hs => ?_, fun c hc => ?_, fun k k' s s' c g1 g2 a1 a2 a3 a4 => ?_⟩, fun k s hs => ?_, fun k x hx => ?_⟩
  · obtain ⟨x, hx⟩ := hfree k s hs
    obtain ⟨s', e1, e2, e3⟩ := hmem k x hx
    rw [hs] at e1
    cases e1
    exact ⟨by omega, e3⟩
  · obtain ⟨k, ⟨-, s, e1, e2, e3⟩, -⟩ := c3 c hc
    exact ⟨k, s, e1, e2, e3⟩
  · obtain ⟨x, hx⟩ := hfree k s g1
    obtain ⟨x', hx'⟩ := hfree k' s' g2
    obtain ⟨s1, e1, e2, e3⟩ := hmem k x hx
    rw [g1] at e1
    cases e1
    exact (c3 c (by omega)).unique ⟨⟨x, hx⟩, s, g1, a1, a2⟩ ⟨⟨x', hx'⟩, s', g2, a3, a4⟩
  · obtain ⟨x, hx⟩ := hfree k s hs
    obtain ⟨s', e1, e2, e3⟩ := hmem k x hx
    rw [hs] at e1
    cases e1
    exact ⟨x, hx, by omega⟩
  · obtain ⟨s', e1, e2, e3⟩ := hmem k x hx
    exact ⟨s', e1, by omega⟩

/-! ### Rows -/

/-- The number of rows of a residual at the initial values. -/
noncomputable def rowCount (v : List (K × S)) (r : Residual K S) : ℕ :=
  match lookupAll v r.keys >>= r.error with
  | .ok e => e.length
  | .error _ => 0

theorem rowSlices_ok {v : List (K × S)} : ∀ {rs : List (Residual K S)} {idx : ℕ} {t : List Slice × ℕ}, rowSlices v rs idx = .ok t →
    ∀ r ∈ rs, ∃ xs e, lookupAll v r.keys = .ok xs ∧ r.error xs = .ok e
  | [], idx, t, h, r, hr => by simp at hr
  | r0 :: rs, idx, t, h, r, hr => by
    unfold rowSlices at h
    obtain ⟨xs, h1, h⟩ := bind_ok h
    obtain ⟨e, h2, h⟩ := bind_ok h
    obtain ⟨⟨sl, tot⟩, h3, h⟩ := bind_ok h
    rcases List.mem_cons.1 hr with rfl | hr
    · exact ⟨xs, e, h1, h2⟩
    · exact rowSlices_ok h3 r hr

/-- The slices written out. -/
def rowSlicesFrom (v : List (K × S)) (sz : Residual K S → ℕ) : List (Residual K S) → ℕ → List Slice × ℕ
  | [], idx => ([], idx)
  | r :: rs, idx => (⟨idx, idx + sz r⟩ :: (rowSlicesFrom v sz rs (idx + sz r)).1, (rowSlicesFrom v sz rs (idx + sz r)).2)

theorem rowSlices_of {v : List (K × S)} (sz : Residual K S → ℕ) : ∀ (rs : List (Residual K S)) (idx : ℕ),
    (∀ r ∈ rs, ∃ xs e, lookupAll v r.keys = .ok xs ∧ r.error xs = .ok e ∧ e.length = sz r) →
    rowSlices v rs idx = .ok (rowSlicesFrom v sz rs idx)
  | [], idx, h => rfl
  | r :: rs, idx, h => by
    obtain ⟨xs, e, h1, h2, h3⟩ := h r (List.mem_cons_self)
    have ih := rowSlices_of sz rs (idx + sz r) fun r' hr' => h r' (List.mem_cons_of_mem _ hr')
    unfold rowSlices
    rw [h1, ok_bindE, h2, ok_bindE, h3, ih]
    rfl

theorem reserved_of {P : Prob K S} {v : List (K × S)} (sz : Residual K S → ℕ) : ∀ (l : List (Residual K S × Loss)) (i idx : ℕ),
    (∀ j, P.resSlices[i + j]? = (rowSlicesFrom v sz (l.map Prod.fst) idx).1[j]?) →
    P.sizeErr = (rowSlicesFrom v sz (l.map Prod.fst) idx).2 → Reserved P i idx (l.map fun p => (p, sz p.1))
  | [], i, idx, h1, h2 => h2.symm
  | p :: l, i, idx, h1, h2 => by
    refine ⟨?_, reserved_of sz l (i + 1) (idx + sz p.1) (fun j => ?_) h2⟩
    · have := h1 0
      simpa [rowSlicesFrom] using this
    · have := h1 (j + 1)
      rw [show i + (j + 1) = i + 1 + j by omega] at this
      rw [this]
      simp [rowSlicesFrom]

/-- Two problems, not solved before, with the same settings, variables, constants and residuals, in any order. -/
structure SameProblem (P P' : Prob K S) : Prop where
  cfg : P'.cfg = P.cfg
  const : ∀ k, k ∈ P.constKeys ↔ k ∈ P'.constKeys
  vars : P.varsInit.Perm P'.varsInit
  keys : (P.varsInit.map Prod.fst).Nodup
  res : (P.residuals.zip P.losses).Perm (P'.residuals.zip P'.losses)
  len : P.losses.length = P.residuals.length
  len' : P'.losses.length = P'.residuals.length
  fresh : P.varSlices = [] ∧ P.cov = none ∧ P.info = none ∧ P.costHistory = []
  fresh' : P'.varSlices = [] ∧ P'.cov = none ∧ P'.info = none ∧ P'.costHistory = []

theorem freeVars_same {const const' : List K} (h : ∀ k, k ∈ const ↔ k ∈ const') (v : List (K × S)) :
    freeVars const' v = freeVars const v := by
  unfold freeVars
  refine List.filter_congr fun p _ => ?_
  have : const'.contains p.1 = const.contains p.1 := by rw [Bool.eq_iff_iff]; simp [h p.1]
  rw [this]

theorem started_order {o : VarOps S} {P P' P1 : Prob K S} (hP : SameProblem P P') (h : P.started o = .ok P1) :
    ∃ (P1' : Prob K S) (σ : Fin P1.sizeState ≃ Fin P1'.sizeState), P'.started o = .ok P1' ∧ Reordered P1 P1' σ ∧
      SameVars P1.vars P1'.vars ∧ P1'.cov = P1.cov ∧ P1.cov = none ∧ P1.info = none ∧ P1'.info = none ∧
      P1'.costHistory = P1.costHistory := by
  have hv : SameVars P.varsInit P'.varsInit := ⟨hP.vars, hP.keys⟩
  have hn' : (P'.varsInit.map Prod.fst).Nodup := (hP.vars.map Prod.fst).nodup_iff.1 hP.keys
  obtain ⟨r1, r2, r3⟩ := started_slices h
  have hfst : ∀ (Q : Prob K S), Q.losses.length = Q.residuals.length → (Q.residuals.zip Q.losses).map Prod.fst = Q.residuals := by
    intro Q hQ
    exact List.map_fst_zip (by omega)
  have hok := rowSlices_ok r1
  have hsz : ∀ r ∈ P.residuals, ∃ xs e, lookupAll P.varsInit r.keys = .ok xs ∧ r.error xs = .ok e ∧ e.length = rowCount P.varsInit r := by
    intro r hr
    obtain ⟨xs, e, h1, h2⟩ := hok r hr
    refine ⟨xs, e, h1, h2, ?_⟩
    unfold rowCount
    rw [h1, ok_bindE, h2]
  have hres : P.residuals.Perm P'.residuals := by
    have := hP.res.map Prod.fst
    rwa [hfst P hP.len, hfst P' hP.len'] at this
  have g1 := rowSlices_of (v := P.varsInit) (rowCount P.varsInit) P.residuals 0 hsz
  have g2 := rowSlices_of (v := P'.varsInit) (rowCount P.varsInit) P'.residuals 0 fun r hr => by
    obtain ⟨xs, e, h1, h2, h3⟩ := hsz r (hres.mem_iff.2 hr)
    exact ⟨xs, e, by rw [hv.lookupAll, h1], h2, h3⟩
  have hst : ∃ P1' : Prob K S, P'.started o = .ok P1' ∧ P1' = { P' with
      vars := P'.varsInit, varSlices := (colSlices o P'.constKeys P'.varsInit 0 P'.varSlices).1,
      resSlices := (rowSlicesFrom P'.varsInit (rowCount P.varsInit) P'.residuals 0).1,
      sizeErr := (rowSlicesFrom P'.varsInit (rowCount P.varsInit) P'.residuals 0).2,
      sizeState := (colSlices o P'.constKeys P'.varsInit 0 P'.varSlices).2 } := by
    refine ⟨_, ?_, rfl⟩
    show (rowSlices P'.varsInit P'.residuals 0 >>= _) = _
    rw [g2]
    rfl
  obtain ⟨P1', s1, s2⟩ := hst
  obtain ⟨e1, e2, e3, e4, e5, e6, e7, e8⟩ := started_fields h
  obtain ⟨e1', e2', e3', e4', e5', e6', e7', e8'⟩ := started_fields s1
  obtain ⟨T, t1, t2⟩ := started_table h hP.fresh.1 hP.keys
  obtain ⟨T', t1', t2'⟩ := started_table s1 hP.fresh'.1 hn'
  have hfree : (freeVars P.constKeys P.varsInit).Perm (freeVars P'.constKeys P'.varsInit) := by
    rw [freeVars_same hP.const]
    exact hP.vars.filter _
  have hsize : P1.sizeState = P1'.sizeState := by
    rw [(C37_columns o P P1 h hP.keys).2.1, (C37_columns o P' P1' s1 hn').2.1]
    exact (hfree.map _).sum_eq
  obtain ⟨σ, hσ⟩ := corr_exists T T' hsize (fun k s hs => by
      obtain ⟨x, hx, hl⟩ := t1 k s hs
      obtain ⟨s', hs', hl'⟩ := t2' k x (hfree.mem_iff.1 hx)
      exact ⟨s', hs', by omega⟩) (fun k s' hs' => by
      obtain ⟨x, hx, hl⟩ := t1' k s' hs'
      obtain ⟨s, hs, -⟩ := t2 k x (hfree.mem_iff.2 hx)
      exact ⟨s, hs⟩)
  refine ⟨P1', σ, s1, ⟨by rw [e1, e1']; exact hP.cfg, fun k => by rw [e3, e3']; exact hP.const k, hσ, ?_⟩, ?_, ?_, ?_, ?_, ?_, ?_⟩
  · refine ⟨(P.residuals.zip P.losses).map fun p => (p, rowCount P.varsInit p.1),
      (P'.residuals.zip P'.losses).map fun p => (p, rowCount P.varsInit p.1), ?_, ?_, ?_, ?_, hP.res.map _⟩
    · rw [List.map_map, e4, e5]; exact List.map_id _
    · rw [List.map_map, e4', e5']; exact List.map_id _
    · refine reserved_of (v := P.varsInit) _ _ 0 0 (fun j => ?_) ?_
      · rw [hfst P hP.len, Nat.zero_add]
        rw [g1] at r1
        have := Except.ok.inj r1
        rw [this]
      · rw [hfst P hP.len]
        rw [g1] at r1
        have := Except.ok.inj r1
        rw [this]
    · refine reserved_of (v := P'.varsInit) _ _ 0 0 (fun j => ?_) ?_
      · rw [hfst P' hP.len', Nat.zero_add, s2]
      · rw [hfst P' hP.len', s2]
  · rw [e6, e6']; exact hv
  · rw [e8, e8', hP.fresh.2.1, hP.fresh'.2.1]
  · rw [e8, hP.fresh.2.1]
  · rw [e7, hP.fresh.2.2.1]
  · rw [e7', hP.fresh'.2.2.1]
  · have a1 : P1'.costHistory = P'.costHistory := by rw [s2]
    have a2 : P1.costHistory = P.costHistory := by
      unfold Prob.started Prob.computeSize at h
      obtain ⟨⟨rs, m⟩, q1, h⟩ := bind_ok h
      cases h
      rfl
    rw [a1, a2, hP.fresh.2.2.2, hP.fresh'.2.2.2]

/-- The blocks that `get_covariance_block` returns: both `None`, or arrays with the same entries. -/
def SameBlock : Option DMat → Option DMat → Prop
  | none, none => True
  | some A, some B => A.Same B
  | _, _ => False

theorem solve_of_alike {o : VarOps S} {P P' P1 P1' Q : Prob K S} (hcfg : P'.cfg = P.cfg) (h1 : P.started o = .ok P1)
    (g1 : P'.started o = .ok P1') {σ : Fin P1.sizeState ≃ Fin P1'.sizeState} (g2 : ProbAlike P1 P1' σ)
    (g3 : SameVars P1.vars P1'.vars) (g4 : P1'.cov = P1.cov) (g5 : P1.cov = none) (g6 : P1.info = none) (g7 : P1'.info = none)
    (g8 : P1'.costHistory = P1.costHistory) (h : P.solve o = .ok Q) :
    ∃ (Q' : Prob K S) (σ : Fin Q.sizeState ≃ Fin Q'.sizeState), P'.solve o = .ok Q' ∧ SolvedAlike Q Q' σ ∧ Q.cov = none := by
  unfold Prob.solve at h
  have h1' : (({ P with vars := P.varsInit } : Prob K S).computeSize o) = .ok P1 := h1
  rw [h1', ok_bindE] at h
  have e : P'.solve o = if P'.cfg.solver = "GN" then solveGN o P1' else if P'.cfg.solver = "LM" then solveLM o P1' else .ok P1' := by
    unfold Prob.solve
    have : (({ P' with vars := P'.varsInit } : Prob K S).computeSize o) = .ok P1' := g1
    rw [this, ok_bindE]
  rw [e, hcfg]
  by_cases hg : P.cfg.solver = "GN"
  · rw [if_pos hg] at h
    rw [if_pos hg]
    obtain ⟨Q', τ, k1, k2⟩ := solveGN_order g2 g3 g4 h
    refine ⟨Q', τ, k1, k2, ?_⟩
    unfold solveGN at h
    obtain ⟨L, a1, h⟩ := bind_ok h
    obtain ⟨s, a2, h⟩ := bind_ok h
    obtain ⟨Lf, a3, h⟩ := bind_ok h
    cases hi : s.info with
    | none => rw [hi] at h; cases h
    | some A => rw [hi] at h; cases h; exact g5
  · rw [if_neg hg] at h
    rw [if_neg hg]
    by_cases hl : P.cfg.solver = "LM"
    · rw [if_pos hl] at h
      rw [if_pos hl]
      obtain ⟨Q', τ, k1, k2⟩ := solveLM_order g2 g3 g4 h
      refine ⟨Q', τ, k1, k2, ?_⟩
      unfold solveLM at h
      obtain ⟨L, a1, h⟩ := bind_ok h
      obtain ⟨mx, a4, h⟩ := bind_ok h
      obtain ⟨s, a2, h⟩ := bind_ok h
      obtain ⟨Lf, a3, h⟩ := bind_ok h
      cases h
      exact g5
    · rw [if_neg hl] at h
      rw [if_neg hl]
      cases h
      refine ⟨P1', σ, rfl, ⟨g3, g8, ?_, g2.corr, g4⟩, g5⟩
      rw [g6, g7]
      exact .none

theorem solve_order {o : VarOps S} {P P' Q : Prob K S} (hP : SameProblem P P') (h : P.solve o = .ok Q) :
    ∃ (Q' : Prob K S) (σ : Fin Q.sizeState ≃ Fin Q'.sizeState), P'.solve o = .ok Q' ∧ SolvedAlike Q Q' σ ∧ Q.cov = none := by
  have h0 := h
  unfold Prob.solve at h0
  obtain ⟨P1, h1, -⟩ := bind_ok h0
  obtain ⟨P1', σ, g1, g2, g3, g4, g5, g6, g7, g8⟩ := started_order hP h1
  exact solve_of_alike hP.cfg h1 g1 g2.alike g3 g4 g5 g6 g7 g8 h

theorem block_order {n n' : ℕ} {σ : Fin n ≃ Fin n'} {vs vs' : List (K × Slice)} (hc : Corr vs vs' σ) {B : Mat n n} {B' : Mat n' n'}
    (hB : ∀ i j, B' (σ i) (σ j) = B i j) {k1 k2 : K} {s1 s2 s1' s2' : Slice} (h1 : vs.lookup k1 = some s1)
    (h2 : vs.lookup k2 = some s2) (h1' : vs'.lookup k1 = some s1') (h2' : vs'.lookup k2 = some s2') :
    (SqMat.block ⟨n, B⟩ s1 s2).Same (SqMat.block ⟨n', B'⟩ s1' s2') := by
  have f1 := hc.fits _ _ h1
  have f2 := hc.fits _ _ h2
  have f1' := hc.fits' _ _ h1'
  have f2' := hc.fits' _ _ h2'
  have l1 := hc.len _ _ _ h1 h1'
  have l2 := hc.len _ _ _ h2 h2'
  refine ⟨?_, ?_, fun i j hi hj => ?_⟩
  · show s1.len n = s1'.len n'
    unfold Slice.len; omega
  · show s2.len n = s2'.len n'
    unfold Slice.len; omega
  · have hi' : i < s1.len n := hi
    have hj' : j < s2.len n := hj
    unfold Slice.len at hi' hj'
    obtain ⟨p1, p2⟩ := hc.pos _ _ _ h1 h1' ⟨s1.start + i, by omega⟩
    obtain ⟨q1, q2⟩ := hc.pos _ _ _ h2 h2' ⟨s2.start + j, by omega⟩
    have p3 := p1.1 ⟨by simp, by simp only; omega⟩
    have p4 := p2 (by simp) (by simp only; omega)
    have q3 := q1.1 ⟨by simp, by simp only; omega⟩
    have q4 := q2 (by simp) (by simp only; omega)
    simp only at p3 p4 q3 q4
    have p5 : (σ ⟨s1.start + i, by omega⟩).val = s1'.start + i := by omega
    have q5 : (σ ⟨s2.start + j, by omega⟩).val = s2'.start + j := by omega
    have m1 : min s1.start n = s1.start := by omega
    have m2 : min s2.start n = s2.start := by omega
    have m1' : min s1'.start n' = s1'.start := by omega
    have m2' : min s2'.start n' = s2'.start := by omega
    show (if h : min s1.start n + i < n ∧ min s2.start n + j < n then B ⟨min s1.start n + i, h.1⟩ ⟨min s2.start n + j, h.2⟩ else 0) =
      (if h : min s1'.start n' + i < n' ∧ min s2'.start n' + j < n' then B' ⟨min s1'.start n' + i, h.1⟩ ⟨min s2'.start n' + j, h.2⟩
        else 0)
    rw [dif_pos ⟨by omega, by omega⟩, dif_pos ⟨by omega, by omega⟩, ← hB]
    have c1 : σ ⟨min s1.start n + i, by omega⟩ = ⟨min s1'.start n' + i, by omega⟩ := by
      apply Fin.ext
      simp only [m1, m1']
      exact p5
    have c2 : σ ⟨min s2.start n + j, by omega⟩ = ⟨min s2'.start n' + j, by omega⟩ := by
      apply Fin.ext
      simp only [m2, m2']
      exact q5
    rw [c1, c2]

theorem SolvedAlike.block {Q Q' : Prob K S} {σ : Fin Q.sizeState ≃ Fin Q'.sizeState} (h2 : SolvedAlike Q Q' σ) (hcov : Q.cov = none)
    (k1 k2 : K) (r : Option DMat × Prob K S) (hr : Q.getCovarianceBlock k1 k2 = .ok r) :
    ∃ r', Q'.getCovarianceBlock k1 k2 = .ok r' ∧ SameBlock r.1 r'.1 := by
  have hcov' : Q'.cov = none := by rw [h2.cov, hcov]
  have hinfo := h2.info
  have hcorr := h2.corr
  unfold Prob.getCovarianceBlock Prob.computeCovariance at hr ⊢
  simp only [hcov, hcov', Option.isNone_none, if_true] at hr ⊢
  have hlk : ∀ k, (Q'.varSlices.lookup k = none ↔ Q.varSlices.lookup k = none) := by
    intro k
    constructor
    · intro e
      cases e' : Q.varSlices.lookup k with
      | none => rfl
      | some s => obtain ⟨s', hs'⟩ := hcorr.has k s e'; rw [e] at hs'; cases hs'
    · intro e
      cases e' : Q'.varSlices.lookup k with
      | none => rfl
      | some s => obtain ⟨s', hs'⟩ := hcorr.has' k s e'; rw [e] at hs'; cases hs'
  generalize hI : Q.info = I at hinfo hr
  generalize hI' : Q'.info = I' at hinfo
  cases hinfo with
  | none =>
    simp only at hr ⊢
    cases a1 : Q.varSlices.lookup k1 with
    | none =>
      rw [a1] at hr
      simp only at hr
      cases hr
      rw [(hlk k1).2 a1]
      exact ⟨_, rfl, trivial⟩
    | some s1 =>
      cases a2 : Q.varSlices.lookup k2 with
      | none =>
        rw [a1, a2] at hr
        simp only at hr
        cases hr
        obtain ⟨s1', b1⟩ := hcorr.has _ _ a1
        rw [b1, (hlk k2).2 a2]
        exact ⟨_, rfl, trivial⟩
      | some s2 =>
        rw [a1, a2] at hr
        simp only [hcov] at hr
        cases hr
  | some A A' hA =>
    have eA := submatrix_of_rel σ hA
    have hdet : A'.det = A.det := by rw [eA, Matrix.det_submatrix_equiv_self]
    have hinv : ∀ i j, A'⁻¹ (σ i) (σ j) = A⁻¹ i j := by
      intro i j
      rw [eA, Matrix.inv_submatrix_equiv, Matrix.submatrix_apply, Equiv.symm_apply_apply, Equiv.symm_apply_apply]
    simp only [hdet] at hr ⊢
    by_cases hd : A.det = 0
    · simp only [if_pos hd] at hr ⊢
      cases a1 : Q.varSlices.lookup k1 with
      | none =>
        rw [a1] at hr
        simp only at hr
        cases hr
        rw [(hlk k1).2 a1]
        exact ⟨_, rfl, trivial⟩
      | some s1 =>
        cases a2 : Q.varSlices.lookup k2 with
        | none =>
          rw [a1, a2] at hr
          simp only at hr
          cases hr
          obtain ⟨s1', b1⟩ := hcorr.has _ _ a1
          rw [b1, (hlk k2).2 a2]
          exact ⟨_, rfl, trivial⟩
        | some s2 =>
          rw [a1, a2] at hr
          simp only [hcov] at hr
          cases hr
    · simp only [if_neg hd] at hr ⊢
      cases a1 : Q.varSlices.lookup k1 with
      | none =>
        rw [a1] at hr
        simp only at hr
        cases hr
        rw [(hlk k1).2 a1]
        exact ⟨_, rfl, trivial⟩
      | some s1 =>
        cases a2 : Q.varSlices.lookup k2 with
        | none =>
          rw [a1, a2] at hr
          simp only at hr
          cases hr
          obtain ⟨s1', b1⟩ := hcorr.has _ _ a1
          rw [b1, (hlk k2).2 a2]
          exact ⟨_, rfl, trivial⟩
        | some s2 =>
          rw [a1, a2] at hr
          simp only at hr
          cases hr
          obtain ⟨s1', b1⟩ := hcorr.has _ _ a1
          obtain ⟨s2', b2⟩ := hcorr.has _ _ a2
          rw [b1, b2]
          exact ⟨_, rfl, block_order hcorr hinv a1 a2 b1 b2⟩

/-- **C97, `Problem`.** The same residuals, variables and constants, added in any order: `solve` succeeds for one if and only if it does
for the other, with the same optimal value of every variable, the same cost after every iteration, and the same covariance blocks. -/
theorem C97_problem {o : VarOps S} {P P' Q : Prob K S} (hP : SameProblem P P') (h : P.solve o = .ok Q) :
    ∃ Q', P'.solve o = .ok Q' ∧ Q.vars.Perm Q'.vars ∧ Q'.costHistory = Q.costHistory ∧
      ∀ (k1 k2 : K) (r : Option DMat × Prob K S), Q.getCovarianceBlock k1 k2 = .ok r →
        ∃ r', Q'.getCovarianceBlock k1 k2 = .ok r' ∧ SameBlock r.1 r'.1 := by
  obtain ⟨Q', σ, h1, h2, hcov⟩ := solve_order hP h
  refine ⟨Q', h1, h2.vars.perm, h2.costs, h2.block hcov⟩

/-! ### Calls -/

/-- A call that builds a problem. -/
inductive Call (K S : Type) where
  | addVariable (k : K) (x : S)
  | addResidual (r : Residual K S) (l : Loss)
  | setConstant (ks : List K)

def Prob.call (P : Prob K S) : Call K S → Prob K S
  | .addVariable k x => P.addVariable k x
  | .addResidual r l => P.addResidual r l
  | .setConstant ks => P.setConstant ks

/-- A new problem after a sequence of calls. -/
def Prob.build (cfg : ProbCfg) (cs : List (Call K S)) : Prob K S := cs.foldl Prob.call (Prob.new cfg)

def Call.var? : Call K S → Option (K × S)
  | .addVariable k x => some (k, x)
  | _ => none

def Call.res? : Call K S → Option (Residual K S × Loss)
  | .addResidual r l => some (r, l)
  | _ => none

def Call.const : Call K S → List K
  | .setConstant ks => ks
  | _ => []

theorem mem_foldl_const (ks : List K) : ∀ (acc : List K) (k : K),
    k ∈ ks.foldl (fun acc k => if k ∈ acc then acc else acc ++ [k]) acc ↔ k ∈ acc ∨ k ∈ ks := by
  induction ks with
  | nil => simp
  | cons q ks ih =>
    intro acc k
    rw [List.foldl_cons, ih]
    by_cases hq : q ∈ acc
    · rw [if_pos hq]
      simp only [List.mem_cons]
      constructor
      · rintro (h | h)
        · exact Or.inl h
        · exact Or.inr (Or.inr h)
      · rintro (h | rfl | h)
        · exact Or.inl h
        · exact Or.inl hq
        · exact Or.inr h
    · rw [if_neg hq]
      simp only [List.mem_append, List.mem_cons, List.mem_singleton, List.not_mem_nil, or_false, or_assoc]

theorem lookup_none_of_not_mem {α : Type} : ∀ {d : List (K × α)} {k : K}, k ∉ d.map Prod.fst → d.lookup k = none
  | [], k, h => rfl
  | (q, x) :: d, k, h => by
    rw [List.map_cons, List.mem_cons, not_or] at h
    rw [lookup_cons_ne _ _ h.1]
    exact lookup_none_of_not_mem h.2

/-- The parts of the built problem. -/
theorem calls_fields : ∀ (cs : List (Call K S)) (P : Prob K S), ((P.varsInit ++ cs.filterMap Call.var?).map Prod.fst).Nodup →
    P.losses.length = P.residuals.length →
    (cs.foldl Prob.call P).varsInit = P.varsInit ++ cs.filterMap Call.var? ∧
    (cs.foldl Prob.call P).residuals.zip (cs.foldl Prob.call P).losses = P.residuals.zip P.losses ++ cs.filterMap Call.res? ∧
    (cs.foldl Prob.call P).losses.length = (cs.foldl Prob.call P).residuals.length ∧
    (∀ k, k ∈ (cs.foldl Prob.call P).constKeys ↔ k ∈ P.constKeys ∨ ∃ c ∈ cs, k ∈ c.const) ∧
    (cs.foldl Prob.call P).cfg = P.cfg ∧ (cs.foldl Prob.call P).varSlices = P.varSlices ∧ (cs.foldl Prob.call P).cov = P.cov ∧
    (cs.foldl Prob.call P).info = P.info ∧ (cs.foldl Prob.call P).costHistory = P.costHistory
  | [], P, hn, hl => by simp [hl]
  | .addVariable k x :: cs, P, hn, hl => by
    have e : (Call.addVariable k x :: cs).filterMap Call.var? = (k, x) :: cs.filterMap Call.var? := rfl
    rw [e] at hn
    have hk : k ∉ P.varsInit.map Prod.fst := by
      rw [List.map_append, List.nodup_append] at hn
      intro hk
      exact hn.2.2 k hk k (by simp) rfl
    have e2 : (P.addVariable k x).varsInit = P.varsInit ++ [(k, x)] := by
      show dictSet P.varsInit k x = _
      unfold dictSet
      rw [lookup_none_of_not_mem hk]
      rfl
    obtain ⟨a1, a2, a3, a4, a5⟩ := calls_fields cs (P.addVariable k x) (by rw [e2, List.append_assoc]; exact hn) hl
    rw [List.foldl_cons]
    refine ⟨?_, a2, a3, fun q => ?_, a5⟩
    · show (cs.foldl Prob.call (P.addVariable k x)).varsInit = _
      rw [a1, e2, List.append_assoc, e]; rfl
    · show q ∈ (cs.foldl Prob.call (P.addVariable k x)).constKeys ↔ _
      rw [a4]
      simp [Call.const, Prob.addVariable]
  | .addResidual r l :: cs, P, hn, hl => by
    obtain ⟨a1, a2, a3, a4, a5⟩ := calls_fields cs (P.addResidual r l) hn (by simp [Prob.addResidual, hl])
    rw [List.foldl_cons]
    refine ⟨a1, ?_, a3, fun q => ?_, a5⟩
    · show (cs.foldl Prob.call (P.addResidual r l)).residuals.zip (cs.foldl Prob.call (P.addResidual r l)).losses = _
      rw [a2]
      show (P.residuals ++ [r]).zip (P.losses ++ [l]) ++ _ = _
      rw [List.zip_append hl.symm, List.append_assoc]
      rfl
    · show q ∈ (cs.foldl Prob.call (P.addResidual r l)).constKeys ↔ _
      rw [a4]
      simp [Call.const, Prob.addResidual]
  | .setConstant ks :: cs, P, hn, hl => by
    obtain ⟨a1, a2, a3, a4, a5⟩ := calls_fields cs (P.setConstant ks) hn hl
    rw [List.foldl_cons]
    refine ⟨a1, a2, a3, fun q => ?_, a5⟩
    show q ∈ (cs.foldl Prob.call (P.setConstant ks)).constKeys ↔ _
    rw [a4]
    have e : q ∈ (P.setConstant ks).constKeys ↔ q ∈ P.constKeys ∨ q ∈ ks := mem_foldl_const ks _ _
    rw [e]
    simp only [List.mem_cons, exists_eq_or_imp, Call.const, or_assoc]

theorem build_same {cfg : ProbCfg} {cs cs' : List (Call K S)} (hp : cs.Perm cs') (hn : ((cs.filterMap Call.var?).map Prod.fst).Nodup) :
    SameProblem (Prob.build cfg cs) (Prob.build cfg cs') := by
  have hn' : ((cs'.filterMap Call.var?).map Prod.fst).Nodup := (((hp.filterMap _).map _).nodup_iff).1 hn
  obtain ⟨a1, a2, a3, a4, a5, a6, a7, a8, a9⟩ := calls_fields cs (Prob.new cfg) hn rfl
  obtain ⟨b1, b2, b3, b4, b5, b6, b7, b8, b9⟩ := calls_fields cs' (Prob.new cfg) hn' rfl
  refine ⟨b5.trans a5.symm, fun k => ?_, ?_, ?_, ?_, a3, b3, ⟨a6, a7, a8, a9⟩, ⟨b6, b7, b8, b9⟩⟩
  · refine (a4 k).trans (Iff.trans ?_ (b4 k).symm)
    refine or_congr Iff.rfl ⟨fun ⟨c, hc, hk⟩ => ⟨c, hp.mem_iff.1 hc, hk⟩, fun ⟨c, hc, hk⟩ => ⟨c, hp.mem_iff.2 hc, hk⟩⟩
  · show (cs.foldl Prob.call _).varsInit.Perm (cs'.foldl Prob.call _).varsInit
    rw [a1, b1]
    exact (hp.filterMap _).append_left _
  · show ((cs.foldl Prob.call _).varsInit.map Prod.fst).Nodup
    rw [a1]
    exact hn
  · show ((cs.foldl Prob.call _).residuals.zip (cs.foldl Prob.call _).losses).Perm _
    rw [a2]
    refine List.Perm.trans ?_ (List.Perm.of_eq b2.symm)
    exact (hp.filterMap _).append_left _

/-- **C97, calls.** A problem may be built by its calls `add_variable`, `add_residual`, `set_variables_constant` in any order (each
variable being added once): `solve` gives the same optimal variables, the same costs and the same covariance blocks. -/
theorem C97_calls {o : VarOps S} (cfg : ProbCfg) (cs cs' : List (Call K S)) (hp : cs.Perm cs')
    (hn : ((cs.filterMap Call.var?).map Prod.fst).Nodup) (Q : Prob K S) (h : (Prob.build cfg cs).solve o = .ok Q) :
    ∃ Q', (Prob.build cfg cs').solve o = .ok Q' ∧ Q.vars.Perm Q'.vars ∧ Q'.costHistory = Q.costHistory ∧
      ∀ (k1 k2 : K) (r : Option DMat × Prob K S), Q.getCovarianceBlock k1 k2 = .ok r →
        ∃ r', Q'.getCovarianceBlock k1 k2 = .ok r' ∧ SameBlock r.1 r'.1 :=
  C97_problem (build_same hp hn) h

/-- The converse: `solve` succeeds for both or for neither. -/
theorem C97_calls_iff {o : VarOps S} (cfg : ProbCfg) (cs cs' : List (Call K S)) (hp : cs.Perm cs')
    (hn : ((cs.filterMap Call.var?).map Prod.fst).Nodup) :
    (∃ Q, (Prob.build cfg cs).solve o = .ok Q) ↔ ∃ Q, (Prob.build cfg cs').solve o = .ok Q := by
  constructor
  · rintro ⟨Q, h⟩
    obtain ⟨Q', h', -⟩ := C97_calls cfg cs cs' hp hn Q h
    exact ⟨Q', h'⟩
  · rintro ⟨Q, h⟩
    obtain ⟨Q', h', -⟩ := C97_calls cfg cs' cs hp.symm ((((hp.filterMap _).map _).nodup_iff).1 hn) Q h
    exact ⟨Q', h'⟩

/-! ### A concrete case: free `x`, constant `y`, residuals `2 x - 6` and `x - y` -/

/-- The calls, residuals first. -/
noncomputable def exCalls : List (Call ℕ (List ℝ)) :=
  [.addResidual (linRes [7] [⟨1, 1, fun _ _ => 2⟩] 1 fun _ => -6) l2Loss,
   .addResidual (linRes [7, 3] [⟨1, 1, fun _ _ => 1⟩, ⟨1, 1, fun _ _ => -1⟩] 1 fun _ => 0) l2Loss,
   .addVariable 3 [1], .addVariable 7 [0], .setConstant [3]]

theorem exCalls_linear (cfg : ProbCfg) : LinearProblem (Prob.build cfg exCalls) where
  keys := by simp [Prob.build, exCalls, Prob.call, Prob.addVariable, Prob.addResidual, Prob.setConstant, Prob.new, dictSet, List.lookup]
  losses := rfl
  residuals := by
    intro r hr
    have hr' : r ∈ [linRes [7] [⟨1, 1, fun _ _ => 2⟩] 1 fun _ => -6,
      linRes [7, 3] [⟨1, 1, fun _ _ => 1⟩, ⟨1, 1, fun _ _ => -1⟩] 1 fun _ => 0] := hr
    simp only [List.mem_cons, List.not_mem_nil, or_false] at hr'
    rcases hr' with rfl | rfl
    · refine ⟨[7], [⟨1, 1, fun _ _ => 2⟩], 1, fun _ => -6, rfl, by simp, rfl, ?_⟩
      intro t k J h1 h2
      cases t with
      | succ t => simp at h1
      | zero =>
        simp only [List.getElem?_cons_zero, Option.some.injEq] at h1 h2
        subst h1 h2
        exact ⟨rfl, [0], rfl, rfl⟩
    · refine ⟨[7, 3], [⟨1, 1, fun _ _ => 1⟩, ⟨1, 1, fun _ _ => -1⟩], 1, fun _ => 0, rfl, by simp, rfl, ?_⟩
      intro t k J h1 h2
      match t, h1, h2 with
      | 0, h1, h2 =>
        simp only [List.getElem?_cons_zero, Option.some.injEq] at h1 h2
        subst h1 h2
        exact ⟨rfl, [0], rfl, rfl⟩
      | 1, h1, h2 =>
        simp only [List.getElem?_cons_succ, List.getElem?_cons_zero, Option.some.injEq] at h1 h2
        subst h1 h2
        exact ⟨rfl, [1], rfl, rfl⟩
      | t + 2, h1, h2 => simp at h1

/-- The problem after the sizes have been computed. -/
noncomputable def exStarted (P : Prob ℕ (List ℝ)) : Prob ℕ (List ℝ) :=
  { P with vars := [(3, [1]), (7, [0])], varSlices := [(7, ⟨0, 1⟩)], resSlices := [⟨0, 1⟩, ⟨1, 2⟩], sizeErr := 2, sizeState := 1 }

theorem exCalls_solve : ∃ Q, (Prob.build ⟨"GN", 5, none, none, none, 1⟩ exCalls).solve vecVarOps = .ok Q := by
  set P := Prob.build ⟨"GN", 5, none, none, none, 1⟩ exCalls with hP
  have h1 : P.started vecVarOps = .ok (exStarted P) := by
    simp [exStarted, Prob.started, Prob.computeSize, hP, Prob.build, exCalls, Prob.call, Prob.addVariable, Prob.addResidual, Prob.setConstant,
      Prob.new, rowSlices, lookupAll, dictGet, linRes, linErr, colSlices, vecVarOps, dictSet, bind, Except.bind, List.lookup, pure,
      Except.pure]
  have h2 : ∃ H c e, (exStarted P).linearize P.varsInit = .ok ⟨2, 1, e, H, c⟩ ∧ H 0 0 = 2 := by
    simp [exStarted, Prob.linearize, hP, Prob.build, exCalls, Prob.call, Prob.addVariable, Prob.addResidual, Prob.setConstant,
      Prob.new, asmLoop, lookupAll, dictGet, dictSet, linRes, linErr, bind, Except.bind, List.lookup, pure,
      Except.pure, pyGet, setSeg, Slice.len, placeJacs, DMat.setBlock, DMat.scale, DMat.zeros, l2Loss, listNorm]
    exact ⟨_, ⟨_, _, rfl⟩, rfl⟩
  obtain ⟨H, c, e, h2, h3⟩ := h2
  refine C40_returns P _ (exCalls_linear _) rfl (by decide) h1 _ h2 ?_ one_pos
  rw [Matrix.det_fin_one]
  have e3 : (∑ i : Fin 2, H i 0 * H i 0) ≠ 0 := by
    rw [Fin.sum_univ_two, h3]
    nlinarith [mul_self_nonneg (H 1 0)]
  exact e3

/-- Both orders of the calls, with the constant variable declared constant last or first, solve alike. -/
example : ∃ Q Q', (Prob.build ⟨"GN", 5, none, none, none, 1⟩ exCalls).solve vecVarOps = .ok Q ∧
    (Prob.build ⟨"GN", 5, none, none, none, 1⟩ exCalls.reverse).solve vecVarOps = .ok Q' ∧ Q.vars.Perm Q'.vars := by
  obtain ⟨Q, h⟩ := exCalls_solve
  obtain ⟨Q', h1, h2, -⟩ := C97_calls _ exCalls exCalls.reverse (List.reverse_perm _).symm (by
    show [3, 7].Nodup
    decide) Q h
  exact ⟨Q, Q', h, h1, h2⟩

end Verif
