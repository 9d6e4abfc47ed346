import Verif.Model.Stamps
import Verif.Lemmas.RunFilter
import Verif.Lemmas.Composite
import Mathlib.Data.List.Dedup
import Mathlib.Data.List.Range
import Mathlib.Tactic.FieldSimp

/-!
Property theorems about time stamp utilities (`navlie/utils/common.py`; C48, C49, C52).
-/

namespace Verif

set_option linter.unusedVariables false
set_option linter.unusedSectionVars false

/-! ### `schedule_sequential_measurements` -/

/-- **C52.** `n` models scheduled at overall frequency `freq`: model `i` samples at `offset_i + k / new_freq`
(`k = 0, 1, ...`). These instants are exactly the grid `j / freq`, each grid point belongs to exactly one model, and
two different models never sample at the same time. -/
theorem C52_schedule (n : ℕ) (freq : ℝ) (offs : List ℝ) (nf : ℝ) (h : scheduleSequential n freq = .ok (offs, nf))
    (hf : 0 < freq) :
    offs.length = n ∧ 0 < nf ∧
    (∀ (i k : ℕ) (o : ℝ), offs[i]? = some o → o + k / nf = ((k * n + i : ℕ) : ℝ) / freq) ∧
    (∀ j : ℕ, ∃! p : ℕ × ℕ, ∃ o, offs[p.1]? = some o ∧ o + p.2 / nf = (j : ℝ) / freq) ∧
    (∀ (i i' k k' : ℕ) (o o' : ℝ), offs[i]? = some o → offs[i']? = some o' → o + k / nf = o' + k' / nf →
      i = i' ∧ k = k') := by
  unfold scheduleSequential at h
  split at h
  · cases h
  rename_i hn
  push Not at hn
  cases h
  have hn0 : 0 < n := Nat.pos_of_ne_zero hn.1
  have hnr : (0 : ℝ) < n := by exact_mod_cast hn0
  have hget : ∀ (i : ℕ) (o : ℝ), ((List.range n).map fun i : ℕ => (i : ℝ) * (1 / freq))[i]? = some o →
      i < n ∧ o = (i : ℝ) * (1 / freq) := by
    intro i o h
    rw [List.getElem?_map] at h
    by_cases hi : i < n
    · rw [List.getElem?_range hi] at h
      exact ⟨hi, by simpa using h.symm⟩
    · rw [List.getElem?_eq_none (by simpa using not_lt.1 hi)] at h
      cases h
  have hval : ∀ (i k : ℕ) (o : ℝ), ((List.range n).map fun i : ℕ => (i : ℝ) * (1 / freq))[i]? = some o →
      o + k / (freq / n) = ((k * n + i : ℕ) : ℝ) / freq := by
    intro i k o ho
    obtain ⟨-, rfl⟩ := hget i o ho
    push_cast
    field_simp
    ring
  have hinj : ∀ (i i' k k' : ℕ), i < n → i' < n → k * n + i = k' * n + i' → i = i' ∧ k = k' := by
    intro i i' k k' hi hi' he
    have h1 : (k * n + i) % n = i := by rw [Nat.add_comm, Nat.add_mul_mod_self_right]; exact Nat.mod_eq_of_lt hi
    have h2 : (k' * n + i') % n = i' := by rw [Nat.add_comm, Nat.add_mul_mod_self_right]; exact Nat.mod_eq_of_lt hi'
    have h3 : i = i' := by rw [← h1, ← h2, he]
    subst h3
    exact ⟨rfl, Nat.eq_of_mul_eq_mul_right hn0 (by omega)⟩
  have hcast : ∀ a b : ℕ, (a : ℝ) / freq = (b : ℝ) / freq → a = b := by
    intro a b he
    have := mul_right_cancel₀ (inv_ne_zero hf.ne') (by simpa [div_eq_mul_inv] using he : (a : ℝ) * freq⁻¹ = b * freq⁻¹)
    exact_mod_cast this
  refine ⟨by simp, div_pos hf hnr, hval, ?_, ?_⟩
  · intro j
    refine ⟨(j % n, j / n), ⟨((j % n : ℕ) : ℝ) * (1 / freq), ?_, ?_⟩, ?_⟩
    · rw [List.getElem?_map, List.getElem?_range (Nat.mod_lt j hn0)]
      rfl
    · have := hval (j % n) (j / n) _ (by
        rw [List.getElem?_map, List.getElem?_range (Nat.mod_lt j hn0)]; rfl)
      rw [this]
      congr 2
      exact Nat.div_add_mod' j n
    · rintro ⟨i, k⟩ ⟨o, ho, he⟩
      have h1 := hval i k o ho
      simp only at he
      rw [h1] at he
      have h2 := hcast _ _ he
      have h3 := hinj i (j % n) k (j / n) (hget i o ho).1 (Nat.mod_lt j hn0) (by
        rw [h2]; exact (Nat.div_add_mod' j n).symm)
      rw [h3.1, h3.2]
  · intro i i' k k' o o' ho ho' he
    rw [hval i k o ho, hval i' k' o' ho'] at he
    exact hinj i i' k k' (hget i o ho).1 (hget i' o' ho').1 (hcast _ _ he)

theorem C52_no_models (freq : ℝ) : scheduleSequential 0 freq = .error .zeroDivision := by
  simp [scheduleSequential]

example : ∃ r, scheduleSequential 3 10 = .ok r := by
  unfold scheduleSequential
  rw [if_neg (by norm_num)]
  exact ⟨_, rfl⟩

/-! ### `associate_stamps` -/

theorem mem_potentialMatches {as bs : List ℝ} {offset maxDiff : ℝ} {p : ℝ × ℕ × ℕ} :
    p ∈ potentialMatches as bs offset maxDiff ↔
      ∃ a b, as[p.2.1]? = some a ∧ bs[p.2.2]? = some b ∧ p.1 = |a - (b + offset)| ∧ p.1 < maxDiff := by
  unfold potentialMatches
  simp only [List.mem_flatMap, List.mem_filterMap, Prod.exists, List.mem_zipIdx_iff_getElem?]
  constructor
  · rintro ⟨a, i, ha, b, j, hb, h⟩
    split at h
    · rename_i hlt
      cases h
      exact ⟨a, b, ha, hb, rfl, hlt⟩
    · cases h
  · obtain ⟨d, i, j⟩ := p
    rintro ⟨a, b, ha, hb, h1, h2⟩
    simp only at ha hb h1 h2
    refine ⟨a, i, ha, b, j, hb, ?_⟩
    rw [if_pos (by rw [← h1]; exact h2), h1]

/-- What the greedy loop yields from candidates `l` and free indices `fs`, `ss`. -/
theorem greedyMatch_spec : ∀ (l : List (ℝ × ℕ × ℕ)) (fs ss : List ℕ), fs.Nodup → ss.Nodup →
    l.Pairwise tupleLe →
    (∀ p ∈ greedyMatch l fs ss, p.1 ∈ fs ∧ p.2 ∈ ss ∧ ∃ d, (d, p.1, p.2) ∈ l) ∧
    ((greedyMatch l fs ss).map Prod.fst).Nodup ∧ ((greedyMatch l fs ss).map Prod.snd).Nodup ∧
    (∀ c ∈ l, c.2.1 ∈ fs → c.2.2 ∈ ss → ∃ d' p, p ∈ greedyMatch l fs ss ∧ (d', p.1, p.2) ∈ l ∧
      tupleLe (d', p.1, p.2) c ∧ (p.1 = c.2.1 ∨ p.2 = c.2.2))
  | [], fs, ss, _, _, _ => by simp [greedyMatch]
  | (d, a, b) :: l, fs, ss, hf, hs, hp => by
    obtain ⟨hp1, hp2⟩ := List.pairwise_cons.1 hp
    unfold greedyMatch
    split
    · rename_i hab
      obtain ⟨h1, h2, h3, h4⟩ := greedyMatch_spec l (fs.erase a) (ss.erase b) (hf.erase a) (hs.erase b) hp2
      refine ⟨?_, ?_, ?_, ?_⟩
      · intro p hpm
        rcases List.mem_cons.1 hpm with rfl | hpm
        · exact ⟨hab.1, hab.2, d, by simp⟩
        · obtain ⟨q1, q2, d', q3⟩ := h1 p hpm
          exact ⟨List.mem_of_mem_erase q1, List.mem_of_mem_erase q2, d', by simp [q3]⟩
      · simp only [List.map_cons, List.nodup_cons]
        refine ⟨?_, h2⟩
        intro hm
        obtain ⟨p, hpm, hpe⟩ := List.mem_map.1 hm
        have := (h1 p hpm).1
        rw [hpe, List.Nodup.mem_erase_iff hf] at this
        exact this.1 rfl
      · simp only [List.map_cons, List.nodup_cons]
        refine ⟨?_, h3⟩
        intro hm
        obtain ⟨p, hpm, hpe⟩ := List.mem_map.1 hm
        have := (h1 p hpm).2.1
        rw [hpe, List.Nodup.mem_erase_iff hs] at this
        exact this.1 rfl
      · intro c hc hc1 hc2
        have hhead : (d, a, b) = c ∨ c ∈ l := by
          rcases List.mem_cons.1 hc with h | h
          · exact .inl h.symm
          · exact .inr h
        have hle : tupleLe (d, a, b) c := by
          rcases hhead with rfl | h
          · exact .inr ⟨rfl, .inr ⟨rfl, le_refl _⟩⟩
          · exact hp1 c h
        by_cases hca : c.2.1 = a
        · exact ⟨d, (a, b), by simp, by simp, hle, .inl hca.symm⟩
        · by_cases hcb : c.2.2 = b
          · exact ⟨d, (a, b), by simp, by simp, hle, .inr hcb.symm⟩
          · rcases hhead with rfl | h
            · exact absurd rfl hca
            · obtain ⟨d', p, q1, q2, q3, q4⟩ := h4 c h ((List.Nodup.mem_erase_iff hf).2 ⟨hca, hc1⟩)
                ((List.Nodup.mem_erase_iff hs).2 ⟨hcb, hc2⟩)
              exact ⟨d', p, by simp [q1], by simp [q2], q3, q4⟩
    · rename_i hab
      obtain ⟨h1, h2, h3, h4⟩ := greedyMatch_spec l fs ss hf hs hp2
      refine ⟨?_, h2, h3, ?_⟩
      · intro p hpm
        obtain ⟨q1, q2, d', q3⟩ := h1 p hpm
        exact ⟨q1, q2, d', by simp [q3]⟩
      · intro c hc hc1 hc2
        rcases List.mem_cons.1 hc with rfl | h
        · exact absurd ⟨hc1, hc2⟩ hab
        · obtain ⟨d', p, q1, q2, q3, q4⟩ := h4 c h hc1 hc2
          exact ⟨d', p, q1, by simp [q2], q3, q4⟩

theorem tupleLe_total (p q : ℝ × ℕ × ℕ) : tupleLe p q ∨ tupleLe q p := by
  unfold tupleLe
  rcases lt_trichotomy p.1 q.1 with h | h | h
  · exact .inl (.inl h)
  · rcases lt_trichotomy p.2.1 q.2.1 with h' | h' | h'
    · exact .inl (.inr ⟨h, .inl h'⟩)
    · rcases le_total p.2.2 q.2.2 with h'' | h''
      · exact .inl (.inr ⟨h, .inr ⟨h', h''⟩⟩)
      · exact .inr (.inr ⟨h.symm, .inr ⟨h'.symm, h''⟩⟩)
    · exact .inr (.inr ⟨h.symm, .inl h'⟩)
  · exact .inr (.inl h)

theorem tupleLe_trans {p q r : ℝ × ℕ × ℕ} (h1 : tupleLe p q) (h2 : tupleLe q r) : tupleLe p r := by
  unfold tupleLe at *
  rcases h1 with h1 | ⟨e1, h1⟩ <;> rcases h2 with h2 | ⟨e2, h2⟩
  · exact .inl (lt_trans h1 h2)
  · exact .inl (by rw [← e2]; exact h1)
  · exact .inl (by rw [e1]; exact h2)
  · refine .inr ⟨e1.trans e2, ?_⟩
    omega

open Classical in
theorem sorted_potential (l : List (ℝ × ℕ × ℕ)) :
    (l.mergeSort fun p q => decide (tupleLe p q)).Pairwise tupleLe := by
  have := List.pairwise_mergeSort (le := fun p q => decide (tupleLe p q))
    (fun a b c h1 h2 => by simp at h1 h2 ⊢; exact tupleLe_trans h1 h2)
    (fun a b => by simp; exact tupleLe_total a b) l
  exact this.imp fun h => by simpa using h

theorem sorted_pairs (l : List (ℕ × ℕ)) : (l.mergeSort pairLe).Pairwise fun p q => pairLe p q = true :=
  List.pairwise_mergeSort (le := pairLe) (fun a b c h1 h2 => by
    simp only [pairLe, decide_eq_true_eq] at h1 h2 ⊢; omega)
    (fun a b => by simp only [pairLe, Bool.or_eq_true, decide_eq_true_eq]; omega) l

/-- **C48.** The matches returned by `associate_stamps`: indices in range with stamps closer than `max_difference`;
no index occurs twice on either side; the list is sorted by the first index. Moreover every admissible pair `(i, j)`
is blocked by a match that shares `i` or `j` and is at least as close: the matching is maximal and greedy-stable. -/
theorem C48_associate (as bs : List ℝ) (offset maxDiff : ℝ) :
    (∀ p ∈ associateStamps as bs offset maxDiff, ∃ a b, as[p.1]? = some a ∧ bs[p.2]? = some b ∧
      |a - (b + offset)| < maxDiff) ∧
    ((associateStamps as bs offset maxDiff).map Prod.fst).Pairwise (· < ·) ∧
    ((associateStamps as bs offset maxDiff).map Prod.snd).Nodup ∧
    (∀ (i j : ℕ) (a b : ℝ), as[i]? = some a → bs[j]? = some b → |a - (b + offset)| < maxDiff →
      ∃ p ∈ associateStamps as bs offset maxDiff, (p.1 = i ∨ p.2 = j) ∧
        ∃ a' b', as[p.1]? = some a' ∧ bs[p.2]? = some b' ∧ |a' - (b' + offset)| ≤ |a - (b + offset)|) := by
  classical
  unfold associateStamps
  set l := (potentialMatches as bs offset maxDiff).mergeSort fun p q => decide (tupleLe p q) with hl
  set g := greedyMatch l (List.range as.length) (List.range bs.length) with hg
  obtain ⟨h1, h2, h3, h4⟩ := greedyMatch_spec l (List.range as.length) (List.range bs.length) List.nodup_range
    List.nodup_range (sorted_potential _)
  rw [← hg] at h1 h2 h3 h4
  have hlm : ∀ p, p ∈ l ↔ p ∈ potentialMatches as bs offset maxDiff := fun p => List.mem_mergeSort
  have hperm : (g.mergeSort pairLe).Perm g := List.mergeSort_perm _ _
  refine ⟨?_, ?_, ?_, ?_⟩
  · intro p hp
    obtain ⟨-, -, d, hd⟩ := h1 p (hperm.mem_iff.1 hp)
    obtain ⟨a, b, ha, hb, he, hlt⟩ := mem_potentialMatches.1 ((hlm _).1 hd)
    simp only at he hlt
    exact ⟨a, b, ha, hb, by rw [← he]; exact hlt⟩
  · have hs := sorted_pairs g
    have hn : ((g.mergeSort pairLe).map Prod.fst).Nodup := (hperm.map Prod.fst).nodup_iff.2 h2
    rw [List.pairwise_map]
    rw [List.Nodup, List.pairwise_map] at hn
    refine (hs.and hn).imp ?_
    rintro p q ⟨h5, h6⟩
    simp only [pairLe, decide_eq_true_eq] at h5
    omega
  · exact (hperm.map Prod.snd).nodup_iff.2 h3
  · intro i j a b ha hb hlt
    have hc : (|a - (b + offset)|, i, j) ∈ l :=
      (hlm _).2 (mem_potentialMatches.2 ⟨a, b, ha, hb, rfl, hlt⟩)
    have hi : i ∈ List.range as.length := List.mem_range.2 (List.getElem?_eq_some_iff.1 ha).1
    have hj : j ∈ List.range bs.length := List.mem_range.2 (List.getElem?_eq_some_iff.1 hb).1
    obtain ⟨d', p, q1, q2, q3, q4⟩ := h4 _ hc hi hj
    refine ⟨p, hperm.mem_iff.2 q1, q4, ?_⟩
    obtain ⟨a', b', ha', hb', he, -⟩ := mem_potentialMatches.1 ((hlm _).1 q2)
    refine ⟨a', b', ha', hb', ?_⟩
    simp only at he
    rw [← he]
    rcases q3 with h | ⟨h, -⟩
    · exact h.le
    · exact h.le

/-- **C48, negation.** The documented "length of the smallest of the two lists" is not guaranteed: stamps that are
far apart are not matched at all. -/
theorem C48_length_not_guaranteed : ∃ as bs : List ℝ, as.length = 1 ∧ bs.length = 1 ∧
    associateStamps as bs 0 (1 / 50) = [] := by
  refine ⟨[0], [1], rfl, rfl, ?_⟩
  have : potentialMatches [0] [1] 0 (1 / 50) = [] := by
    simp only [potentialMatches, List.zipIdx_cons, List.zipIdx_nil, List.flatMap_cons, List.flatMap_nil,
      List.filterMap_cons, List.filterMap_nil, List.append_nil]
    rw [if_neg (by norm_num)]
  unfold associateStamps
  rw [this]
  simp [greedyMatch]

/-! ### `find_nearest_stamp_idx` -/

/-- Position `k` of a sorted list is nearest to `q`, if all midpoints before `k` are below `q` and those from `k` on
are not. -/
theorem nearest_core (s : List ℝ) (hs : s.Pairwise (· ≤ ·)) (q : ℝ) (k : ℕ) (hk : k < s.length)
    (hlo : ∀ j (h : j + 1 < s.length), j < k → s[j] / 2 + s[j + 1] / 2 < q)
    (hhi : ∀ j (h : j + 1 < s.length), k ≤ j → q ≤ s[j] / 2 + s[j + 1] / 2) :
    ∀ j (hj : j < s.length), |s[k] - q| ≤ |s[j] - q| ∧ (|s[k] - q| = |s[j] - q| → s[k] ≤ s[j]) := by
  have hmono : ∀ i j (hi : i < s.length) (hj : j < s.length), i ≤ j → s[i] ≤ s[j] := by
    intro i j hi hj hij
    rcases Nat.lt_or_eq_of_le hij with h | h
    · exact (List.pairwise_iff_getElem.1 hs) i j hi hj h
    · subst h; exact le_refl _
  intro j hj
  rcases lt_trichotomy j k with h | h | h
  · obtain ⟨k', rfl⟩ : ∃ k', k = k' + 1 := ⟨k - 1, by omega⟩
    have h1 := hlo k' hk (by omega)
    have h2 := hmono j k' hj (by omega) (by omega)
    have h3 := hmono k' (k' + 1) (by omega) hk (by omega)
    have hjq : s[j] < q := by linarith
    rw [abs_of_neg (show s[j] - q < 0 by linarith)]
    constructor
    · rw [abs_le]; constructor <;> linarith
    · intro he
      rcases abs_cases (s[k' + 1] - q) with ⟨h4, h5⟩ | ⟨h4, h5⟩ <;> linarith
  · subst h
    exact ⟨le_refl _, fun _ => le_refl _⟩
  · have h1 := hhi k (by omega) (le_refl _)
    have h2 := hmono (k + 1) j (by omega) hj (by omega)
    have h3 := hmono k (k + 1) hk (by omega) (by omega)
    have hjq : q ≤ s[j] := by linarith
    rw [abs_of_nonneg (show 0 ≤ s[j] - q by linarith)]
    refine ⟨?_, fun _ => by linarith⟩
    rw [abs_le]; constructor <;> linarith

theorem takeWhile_length_spec (l : List ℝ) (hs : l.Pairwise (· ≤ ·)) (q : ℝ) :
    open Classical in
    (l.takeWhile fun m => decide (m < q)).length ≤ l.length ∧
    (∀ j (h : j < l.length), j < (l.takeWhile fun m => decide (m < q)).length → l[j] < q) ∧
    (∀ j (h : j < l.length), (l.takeWhile fun m => decide (m < q)).length ≤ j → q ≤ l[j]) := by
  classical
  induction l with
  | nil => simp
  | cons x l ih =>
    obtain ⟨h1, h2⟩ := List.pairwise_cons.1 hs
    obtain ⟨i1, i2, i3⟩ := ih h2
    by_cases hx : x < q
    · rw [List.takeWhile_cons_of_pos (by simpa using hx)]
      refine ⟨by simpa using i1, ?_, ?_⟩
      · intro j h hj
        cases j with
        | zero => simpa using hx
        | succ j => simp only [List.getElem_cons_succ]; exact i2 j (by simpa using h) (by simpa using hj)
      · intro j h hj
        cases j with
        | zero => simp at hj
        | succ j => simp only [List.getElem_cons_succ]; exact i3 j (by simpa using h) (by simpa using hj)
    · rw [List.takeWhile_cons_of_neg (by simpa using hx)]
      refine ⟨by simp, ?_, ?_⟩
      · intro j h hj; simp at hj
      · intro j h hj
        cases j with
        | zero => simpa using not_lt.1 hx
        | succ j =>
          simp only [List.getElem_cons_succ]
          exact le_trans (not_lt.1 hx) (h1 _ (List.getElem_mem _))

/-- **C49.** `find_nearest_stamp_idx` returns, for any non-empty list of stamps in any order, the index of a stamp
nearest to the query; among stamps at the same distance it takes the smaller. -/
theorem C49_nearest (stamps : List ℝ) (hne : stamps ≠ []) (q : ℝ) :
    ∃ i, findNearestIdx stamps q = .ok i ∧ ∃ t, stamps[i]? = some t ∧
      ∀ t' ∈ stamps, |t - q| ≤ |t' - q| ∧ (|t - q| = |t' - q| → t ≤ t') := by
  classical
  unfold findNearestIdx interpNearest
  set s := sortByStamp Prod.fst stamps.zipIdx with hs
  have hperm : s.Perm stamps.zipIdx := sortByStamp_perm _ _
  have hsort : TimeSorted Prod.fst s := sortByStamp_sorted _ _
  have hsort' : (s.map Prod.fst).Pairwise (· ≤ ·) := by rw [List.pairwise_map]; exact hsort
  have hlen : s.length = stamps.length := by rw [hperm.length_eq]; simp
  have hpos : 0 < s.length := by
    rw [hlen]; exact List.length_pos_iff.2 hne
  set mids := List.zipWith (fun a b => a / 2 + b / 2) (s.map Prod.fst) (s.tail.map Prod.fst) with hmids
  have hml : mids.length = s.length - 1 := by simp [hmids]
  have hget : ∀ j (h : j < mids.length), mids[j] = (s.map Prod.fst)[j]'(by simp; omega) / 2 +
      (s.map Prod.fst)[j + 1]'(by simp; omega) / 2 := by
    intro j h
    simp [hmids]
  have hmono : ∀ i j (hi : i < s.length) (hj : j < s.length), i ≤ j →
      (s.map Prod.fst)[i]'(by simpa using hi) ≤ (s.map Prod.fst)[j]'(by simpa using hj) := by
    intro i j hi hj hij
    rcases Nat.lt_or_eq_of_le hij with h | h
    · exact (List.pairwise_iff_getElem.1 hsort') i j (by simpa using hi) (by simpa using hj) h
    · subst h; exact le_refl _
  have hmsort : mids.Pairwise (· ≤ ·) := by
    rw [List.pairwise_iff_getElem]
    intro i j hi hj hij
    rw [hget i hi, hget j hj]
    have h1 := hmono i j (by omega) (by omega) hij.le
    have h2 := hmono (i + 1) (j + 1) (by omega) (by omega) (by omega)
    linarith
  obtain ⟨k1, k2, k3⟩ := takeWhile_length_spec mids hmsort q
  set k := (mids.takeWhile fun m => decide (m < q)).length with hk
  have hks : k < s.length := by omega
  have hcore := nearest_core (s.map Prod.fst) hsort' q k (by simpa using hks)
    (by
      intro j h hj
      have hjm : j < mids.length := by rw [hml]; simp at h; omega
      have := k2 j hjm hj
      rwa [hget j hjm] at this)
    (by
      intro j h hj
      have hjm : j < mids.length := by rw [hml]; simp at h; omega
      have := k3 j hjm hj
      rwa [hget j hjm] at this)
  have hsk : s[k]? = some s[k] := by simp
  refine ⟨(s[k]).2, ?_, (s[k]).1, ?_, ?_⟩
  · show (match s[k]? with | some p => Except.ok p.2 | none => Except.error Err.valueError) = _
    rw [hsk]
  · have : s[k] ∈ stamps.zipIdx := hperm.mem_iff.1 (List.getElem_mem hks)
    exact List.mem_zipIdx_iff_getElem?.1 this
  · intro t' ht'
    obtain ⟨i, hi, rfl⟩ := List.getElem_of_mem ht'
    have : (stamps[i], i) ∈ s := hperm.mem_iff.2 (List.mem_zipIdx_iff_getElem?.2 (by simp))
    obtain ⟨j, hj, hje⟩ := List.getElem_of_mem this
    have := hcore j (by simpa using hj)
    simp only [List.getElem_map, hje] at this
    exact this

/-- If a stamp of the list equals the query, it (or an equal one) is the one found. -/
theorem C49_exact (stamps : List ℝ) (q : ℝ) (hq : q ∈ stamps) :
    ∃ i, findNearestIdx stamps q = .ok i ∧ stamps[i]? = some q := by
  obtain ⟨i, h1, t, h2, h3⟩ := C49_nearest stamps (List.ne_nil_of_mem hq) q
  refine ⟨i, h1, ?_⟩
  have h4 := (h3 q hq).1
  rw [sub_self, abs_zero] at h4
  have h5 : t - q = 0 := abs_eq_zero.1 (le_antisymm h4 (abs_nonneg _))
  rw [h2, show t = q by linarith]

theorem C49_empty_raises (q : ℝ) : findNearestIdx [] q = .error .valueError := by
  simp [findNearestIdx, interpNearest, sortByStamp]

/-! ### `np.unique` -/

theorem npUnique_mem {l : List ℝ} {x : ℝ} : x ∈ npUnique l ↔ x ∈ l := by
  unfold npUnique; rw [List.mem_dedup, sortByStamp_mem]

theorem npUnique_sorted (l : List ℝ) : (npUnique l).Pairwise (· < ·) := by
  classical
  unfold npUnique
  have h1 : TimeSorted id (sortByStamp id l) := sortByStamp_sorted _ _
  have h2 : ((sortByStamp id l).dedup).Pairwise (· ≤ ·) := List.Pairwise.sublist (List.dedup_sublist _) h1
  have h3 := List.nodup_dedup (sortByStamp id l)
  exact (h2.and h3).imp fun h => lt_of_le_of_ne h.1 h.2

end Verif
