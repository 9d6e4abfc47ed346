import Verif.Model.Interp
import Verif.Props.Stamps
import Verif.Props.Mixture
import Verif.Props.MixtureGrad
import Verif.Props.Residuals
import Mathlib.Tactic.LinearCombination

/-!
Property theorems about `state_interp` (`navlie/utils/common.py`; C50, C73).
-/

namespace Verif

set_option linter.unusedVariables false
set_option linter.unusedSectionVars false

variable {V : Type} {n : ℕ}

/-- States in time order. -/
def InOrder (states : List (V × ℝ)) : Prop := (states.map Prod.snd).Pairwise (· ≤ ·)

theorem interpStamps_sorted {states : List (V × ℝ)} (h : InOrder states) :
    interpStamps states = states.map Prod.snd := by
  unfold interpStamps
  exact sortByStamp_of_sorted id _ h

open Classical in
theorem takeWhile_le_spec (l : List ℝ) (hs : l.Pairwise (· ≤ ·)) (q : ℝ) (i : ℕ) (hi : i < l.length) :
    i < (l.takeWhile fun x => decide (x ≤ q)).length ↔ l[i] ≤ q := by
  induction l generalizing i with
  | nil => simp at hi
  | cons a l ih =>
    rw [List.pairwise_cons] at hs
    by_cases ha : a ≤ q
    · rw [List.takeWhile_cons_of_pos (by simpa using ha)]
      cases i with
      | zero => simpa using ha
      | succ i =>
        simp only [List.length_cons, Nat.add_lt_add_iff_right, List.getElem_cons_succ]
        exact ih hs.2 i (by simpa using hi)
    · rw [List.takeWhile_cons_of_neg (by simpa using ha)]
      simp only [List.length_nil, Nat.not_lt_zero, false_iff, not_le]
      cases i with
      | zero => simpa using ha
      | succ i =>
        simp only [List.getElem_cons_succ]
        exact lt_of_lt_of_le (not_le.1 ha) (hs.1 _ (List.getElem_mem _))

open Classical in
/-- The cell of a query between two consecutive stamps. -/
theorem interpCell_inside {ts : List ℝ} (hs : ts.Pairwise (· ≤ ·)) {q a b : ℝ} {i : ℕ} (ha : ts[i]? = some a)
    (hb : ts[i + 1]? = some b) (h1 : a ≤ q) (h2 : q < b) :
    interpCell ts q = .ok (i, i + 1, (q - a) / (b - a)) := by
  obtain ⟨hia, rfl⟩ := List.getElem?_eq_some_iff.1 ha
  obtain ⟨hib, rfl⟩ := List.getElem?_eq_some_iff.1 hb
  have hlen : (ts.takeWhile fun x => decide (x ≤ q)).length = i + 1 := by
    have k1 := (takeWhile_le_spec ts hs q i hia).2 h1
    have k2 : ¬ (i + 1 < (ts.takeWhile fun x => decide (x ≤ q)).length) := fun h =>
      absurd ((takeWhile_le_spec ts hs q (i + 1) hib).1 h) (not_le.2 h2)
    omega
  have h0 : ts[0]'(by omega) ≤ q := by
    rcases Nat.eq_zero_or_pos i with h | h
    · subst h; exact h1
    · exact ((List.pairwise_iff_getElem.1 hs) 0 i (by omega) hia h).trans h1
  have hpos : 0 < ts[i + 1] - ts[i] := by linarith
  have hfrac0 : 0 ≤ (q - ts[i]) / (ts[i + 1] - ts[i]) := div_nonneg (by linarith) hpos.le
  have hfrac1 : (q - ts[i]) / (ts[i + 1] - ts[i]) < 1 := by rw [div_lt_one hpos]; linarith
  have hmid : npInterpIdx q ts = .ok ((i : ℝ) + (q - ts[i]) / (ts[i + 1] - ts[i])) := by
    unfold npInterpIdx
    simp only [hlen, Nat.add_sub_cancel]
    rw [List.getElem?_eq_getElem (show 0 < ts.length by omega), ha, hb]
    simp only
    rw [if_neg (not_lt.2 h0)]
  have hfl : ⌊(i : ℝ) + (q - ts[i]) / (ts[i + 1] - ts[i])⌋₊ = i := by
    rw [Nat.floor_eq_iff (by positivity)]
    constructor <;> linarith
  unfold interpCell
  rw [hmid, ok_bindE]
  simp only [hfl]
  have hup : (if i + 1 = ts.length then ts.length - 1 else i + 1) = i + 1 := by
    rw [if_neg (by omega)]
  rw [hup, pyGet_ok (show 0 < ts.length by omega), ok_bindE, pyGet_ok hia, ok_bindE, pyGet_ok hib, ok_bindE]
  rw [if_neg (by push Not; exact ⟨h0, by omega⟩), if_neg (by push Not; exact ⟨hpos.ne', hfrac0⟩)]

open Classical in
/-- The cell of a query before the first stamp. -/
theorem interpCell_before {ts : List ℝ} {q t0 : ℝ} (h0 : ts[0]? = some t0) (hq : q < t0) :
    ∃ up, interpCell ts q = .ok (0, up, 0) ∧ up < ts.length := by
  obtain ⟨hl, h0'⟩ := List.getElem?_eq_some_iff.1 h0
  have htw : (ts.takeWhile fun x => decide (x ≤ q)).length = 0 := by
    cases ts with
    | nil => rfl
    | cons x l =>
      simp only [List.getElem_cons_zero] at h0'
      subst h0'
      rw [List.takeWhile_cons_of_neg (by simpa using hq)]
      rfl
  have hmid : npInterpIdx q ts = .ok 0 := by
    unfold npInterpIdx
    simp only [htw]
    rw [show 0 - 1 = 0 from rfl, h0]
    cases ts[0 + 1]? with
    | none => simp only; rw [if_pos hq]
    | some b => simp only; rw [if_pos hq]
  have hup : (if 0 + 1 = ts.length then ts.length - 1 else 0 + 1) < ts.length := by
    split <;> omega
  refine ⟨_, ?_, hup⟩
  unfold interpCell
  rw [hmid, ok_bindE]
  simp only [Nat.floor_zero]
  rw [pyGet_ok hl, ok_bindE, ok_bindE, pyGet_ok hup, ok_bindE, if_pos (Or.inl (by rw [h0']; exact hq))]

open Classical in
/-- The cell of a query from the last stamp on. -/
theorem interpCell_after {ts : List ℝ} (hs : ts.Pairwise (· ≤ ·)) {q t : ℝ} (hl : ts.getLast? = some t) (hq : t ≤ q) :
    interpCell ts q = .ok (ts.length - 1, ts.length - 1, 0) := by
  rw [List.getLast?_eq_getElem?] at hl
  obtain ⟨hlt, rfl⟩ := List.getElem?_eq_some_iff.1 hl
  have htw : (ts.takeWhile fun x => decide (x ≤ q)).length = ts.length := by
    have k1 := (takeWhile_le_spec ts hs q (ts.length - 1) hlt).2 hq
    have := (List.takeWhile_prefix (fun x => decide (x ≤ q)) (l := ts)).length_le
    omega
  have h0 : ts[0]'(by omega) ≤ q := by
    rcases Nat.eq_zero_or_pos (ts.length - 1) with h | h
    · simp only [h] at hq; exact hq
    · exact ((List.pairwise_iff_getElem.1 hs) 0 (ts.length - 1) (by omega) hlt h).trans hq
  have hmid : npInterpIdx q ts = .ok ((ts.length - 1 : ℕ) : ℝ) := by
    unfold npInterpIdx
    simp only [htw]
    rw [List.getElem?_eq_getElem (show 0 < ts.length by omega), hl,
      List.getElem?_eq_none (show ts.length ≤ ts.length - 1 + 1 by omega)]
    simp only
    rw [if_neg (not_lt.2 h0)]
  unfold interpCell
  rw [hmid, ok_bindE]
  simp only [Nat.floor_natCast]
  have hup : (if ts.length - 1 + 1 = ts.length then ts.length - 1 else ts.length - 1 + 1) = ts.length - 1 := by
    rw [if_pos (by omega)]
  rw [hup, pyGet_ok (show 0 < ts.length by omega), ok_bindE, pyGet_ok hlt, ok_bindE, ok_bindE, if_pos (Or.inr (by omega))]

/-- **C50.** Between two consecutive states of a time-ordered list: `x_i + alpha (x_{i+1} - x_i)` with
`alpha = (t - t_i) / (t_{i+1} - t_i)`, stamped with the query. -/
theorem C50_between (o : StateOps V n) (states : List (V × ℝ)) (hs : InOrder states) (i : ℕ) (x y : V) (a b q : ℝ)
    (hx : states[i]? = some (x, a)) (hy : states[i + 1]? = some (y, b)) (h1 : a ≤ q) (h2 : q < b) :
    interpLinear o states q = .ok (o.plus x (((q - a) / (b - a)) • o.minus y x), q) := by
  unfold interpLinear
  rw [interpStamps_sorted hs, interpCell_inside hs (i := i) (a := a) (b := b) (by rw [List.getElem?_map, hx]; rfl)
    (by rw [List.getElem?_map, hy]; rfl) h1 h2, ok_bindE]
  simp only
  rw [pyGet_iff.2 hx, ok_bindE, pyGet_iff.2 hy, ok_bindE]
  rfl

/-- **C50.** At the stamp of a state the interpolation is that state (of several states with that stamp, the last), for
every state class with `x.plus(0) = x`. -/
theorem C50_node (o : StateOps V n) (h0 : ∀ x, o.plus x 0 = x) (states : List (V × ℝ)) (hs : InOrder states) (i : ℕ)
    (x : V) (a : ℝ) (hx : states[i]? = some (x, a))
    (hnext : ∀ y b, states[i + 1]? = some (y, b) → a < b) : interpLinear o states a = .ok (x, a) := by
  cases hy : states[i + 1]? with
  | some p =>
    obtain ⟨y, b⟩ := p
    rw [C50_between o states hs i x y a b a hx hy (le_refl _) (hnext y b hy)]
    simp [h0]
  | none =>
    have hlen : states.length - 1 = i := by
      have h1 := (List.getElem?_eq_some_iff.1 hx).1
      have h2 := List.getElem?_eq_none_iff.1 hy
      omega
    have hi := (List.getElem?_eq_some_iff.1 hx).1
    unfold interpLinear
    rw [interpStamps_sorted hs, interpCell_after hs (t := a) (by
      rw [List.getLast?_eq_getElem?, List.length_map, hlen, List.getElem?_map, hx]; rfl) (le_refl _), ok_bindE]
    simp only [List.length_map, hlen]
    rw [pyGet_iff.2 hx, ok_bindE, ok_bindE]
    simp only [zero_smul, h0]
    rfl

/-- **C50.** Outside the range the first or the last state is returned, stamped with the query. -/
theorem C50_outside (o : StateOps V n) (h0 : ∀ x, o.plus x 0 = x) (states : List (V × ℝ)) (hs : InOrder states)
    (q : ℝ) :
    (∀ x a, states.head? = some (x, a) → q < a → interpLinear o states q = .ok (x, q)) ∧
    (∀ x a, states.getLast? = some (x, a) → a ≤ q → interpLinear o states q = .ok (x, q)) := by
  constructor
  · intro x a hx hq
    rw [List.head?_eq_getElem?] at hx
    obtain ⟨up, h1, h2⟩ := interpCell_before (ts := states.map Prod.snd) (q := q) (t0 := a)
      (by rw [List.getElem?_map, hx]; rfl) hq
    unfold interpLinear
    rw [interpStamps_sorted hs, h1, ok_bindE]
    simp only
    rw [pyGet_iff.2 hx, ok_bindE, pyGet_ok (by simpa using h2), ok_bindE]
    simp only [zero_smul, h0]
    rfl
  · intro x a hx hq
    unfold interpLinear
    rw [interpStamps_sorted hs, interpCell_after hs (t := a) (by rw [List.getLast?_map, hx]; rfl) hq, ok_bindE]
    rw [List.getLast?_eq_getElem?] at hx
    simp only [List.length_map]
    rw [pyGet_iff.2 hx, ok_bindE, ok_bindE]
    simp only [zero_smul, h0]
    rfl

/-- **C50.** Interpolation of a non-empty time-ordered list never fails, whatever the query, and the result is always
stamped with the query. -/
theorem C50_total (o : StateOps V n) (states : List (V × ℝ)) (hs : InOrder states) (hne : states ≠ []) (q : ℝ) :
    ∃ x, interpLinear o states q = .ok (x, q) := by
  have hl : 0 < states.length := List.length_pos_iff.2 hne
  have key : ∀ (lo up : ℕ) (al : ℝ), interpCell (interpStamps states) q = .ok (lo, up, al) → lo < states.length →
      up < states.length → ∃ x, interpLinear o states q = .ok (x, q) := by
    intro lo up al h h1 h2
    unfold interpLinear
    rw [h, ok_bindE]
    simp only
    rw [pyGet_ok h1, ok_bindE, pyGet_ok h2, ok_bindE]
    exact ⟨_, rfl⟩
  have hts := hs
  unfold InOrder at hts
  by_cases hb : q < (states.map Prod.snd)[0]'(by simpa using hl)
  · obtain ⟨up, h1, h2⟩ := interpCell_before (ts := states.map Prod.snd) (q := q)
      (List.getElem?_eq_getElem (by simpa using hl)) hb
    exact key 0 up 0 (by rw [interpStamps_sorted hs]; exact h1) hl (by simpa using h2)
  · by_cases ha : (states.map Prod.snd)[states.length - 1]'(by simp; omega) ≤ q
    · have := interpCell_after hts (q := q) (t := (states.map Prod.snd)[states.length - 1]'(by simp; omega)) (by
        rw [List.getLast?_eq_getElem?]
        exact List.getElem?_eq_some_iff.2 ⟨by simp; omega, by simp⟩) ha
      rw [List.length_map] at this
      exact key _ _ _ (by rw [interpStamps_sorted hs]; exact this) (by omega) (by omega)
    · classical
      set ts := states.map Prod.snd with hts'
      have htl : ts.length = states.length := by simp [hts']
      set k := (ts.takeWhile fun x => decide (x ≤ q)).length with hk
      have hk1 : 0 < k := (takeWhile_le_spec ts hts q 0 (by omega)).2 (not_lt.1 hb)
      have hk2 : k ≤ states.length - 1 := by
        by_contra hh
        exact ha ((takeWhile_le_spec ts hts q (states.length - 1) (by omega)).1 (by omega))
      have e1 : ts[k - 1]'(by omega) ≤ q := (takeWhile_le_spec ts hts q (k - 1) (by omega)).1 (by omega)
      have e2 : q < ts[k - 1 + 1]'(by omega) := by
        by_contra hh
        have := (takeWhile_le_spec ts hts q (k - 1 + 1) (by omega)).2 (not_lt.1 hh)
        omega
      have := interpCell_inside hts (q := q) (i := k - 1) (List.getElem?_eq_getElem (by omega))
        (List.getElem?_eq_getElem (by omega)) e1 e2
      exact key _ _ _ (by rw [interpStamps_sorted hs]; exact this) (by omega) (by omega)

/-- **C50.** For vector states the interpolation is the convex combination of its neighbours. -/
theorem C50_vector (o : StateOps (Vec n) n) (hp : ∀ x d, o.plus x d = x + d) (hm : ∀ x y, o.minus x y = x - y)
    (states : List (Vec n × ℝ)) (hs : InOrder states) (i : ℕ) (x y : Vec n) (a b q : ℝ)
    (hx : states[i]? = some (x, a)) (hy : states[i + 1]? = some (y, b)) (h1 : a ≤ q) (h2 : q < b) :
    ∃ c : ℝ, 0 ≤ c ∧ c < 1 ∧ q = (1 - c) * a + c * b ∧ interpLinear o states q = .ok ((1 - c) • x + c • y, q) := by
  have hpos : 0 < b - a := by linarith
  refine ⟨(q - a) / (b - a), div_nonneg (by linarith) hpos.le, by rw [div_lt_one hpos]; linarith, ?_, ?_⟩
  · field_simp
    ring
  · rw [C50_between o states hs i x y a b q hx hy h1 h2, hp, hm]
    congr 2
    funext j
    simp only [Pi.add_apply, Pi.smul_apply, Pi.sub_apply, smul_eq_mul]
    ring

/-- **C50.** A list of queries gives one state for each query, in order; a single float gives a single state. -/
theorem C50_queries (o : StateOps V n) (m : InterpMethod) (states : List (V × ℝ)) (l : List QItem) (out : InterpOut V)
    (h : stateInterp o m states (.list l) = .ok out) :
    ∃ rs, out = .many rs ∧ rs.length = l.length ∧ ∀ (i : ℕ) (it : QItem), l[i]? = some it →
      ∃ t r, it.stamp = .ok t ∧ rs[i]? = some r ∧ stateInterp o m states (.float t) = .ok (.one r) := by
  unfold stateInterp at h
  obtain ⟨qs, h1, h⟩ := bind_ok h
  obtain ⟨rs, h2, h⟩ := bind_ok h
  cases h
  obtain ⟨a1, a2⟩ := mapM_get h1
  obtain ⟨b1, b2⟩ := mapM_get h2
  refine ⟨rs, rfl, by omega, ?_⟩
  intro i it hit
  have hil : i < l.length := (List.getElem?_eq_some_iff.1 hit).1
  have hr1 := List.getElem?_eq_getElem (show i < rs.length by omega)
  obtain ⟨t, ht1, hr2⟩ := b2 i _ hr1
  obtain ⟨it', hit', ht2⟩ := a2 i t ht1
  rw [hit] at hit'
  cases hit'
  refine ⟨t, _, ht2, hr1, ?_⟩
  show (interpOne o m states t).map InterpOut.one = _
  rw [hr2]; rfl

/-- **C50.** The nearest method returns a state of the (time-ordered) list whose stamp is nearest to the query, with its
own stamp. -/
theorem C50_nearest (states : List (V × ℝ)) (hs : InOrder states) (hne : states ≠ []) (q : ℝ) :
    ∃ p ∈ states, interpNearestState states q = .ok p ∧ ∀ p' ∈ states, |p.2 - q| ≤ |p'.2 - q| := by
  obtain ⟨i, h1, t, h2, h3⟩ := C49_nearest (states.map Prod.snd) (by simpa using hne) q
  rw [List.getElem?_map] at h2
  cases hp : states[i]? with
  | none => rw [hp] at h2; cases h2
  | some p =>
    rw [hp] at h2
    simp only [Option.map_some, Option.some.injEq] at h2
    refine ⟨p, List.mem_of_getElem? hp, ?_, ?_⟩
    · unfold interpNearestState
      rw [interpStamps_sorted hs]
      unfold findNearestIdx at h1
      rw [h1, ok_bindE, pyGet_iff.2 hp]
    · intro p' hp'
      rw [h2]
      exact (h3 p'.2 (List.mem_map_of_mem hp')).1

/-- **C73.** The order of the list matters although the code sorts the stamps: only the stamps are sorted, the states are
not. For the states `x(0) = 0` and `x(1) = 1`, given as `[x(1), x(0)]`, the interpolation at `1/4` is `3/4`. -/
theorem C73_unsorted_wrong :
    interpLinear (vecStateOps 1) [(fun _ => 1, 1), (fun _ => 0, 0)] (1 / 4) = .ok (fun _ => 3 / 4, 1 / 4) ∧
    interpLinear (vecStateOps 1) [(fun _ => 0, 0), (fun _ => 1, 1)] (1 / 4) = .ok (fun _ => 1 / 4, 1 / 4) := by
  constructor
  · have hst : interpStamps [((fun _ => 1 : Vec 1), (1 : ℝ)), (fun _ => 0, 0)] = [0, 1] := by
      unfold interpStamps
      have h1 : (sortByStamp id [(1 : ℝ), 0]).Perm [0, 1] :=
        (sortByStamp_perm id [(1 : ℝ), 0]).trans (List.Perm.swap _ _ _)
      have h2 := sortByStamp_sorted id [(1 : ℝ), 0]
      exact h1.eq_of_pairwise (le := (· ≤ ·)) (fun a b _ _ h1 h2 => le_antisymm h1 h2) h2 (by simp)
    unfold interpLinear
    rw [hst, interpCell_inside (i := 0) (a := 0) (b := 1) (by simp) (by simp) (by simp) (by norm_num) (by norm_num),
      ok_bindE]
    simp only
    rw [pyGet_ok (by simp), ok_bindE, pyGet_ok (by simp), ok_bindE]
    simp only [vecStateOps, List.getElem_cons_zero, List.getElem_cons_succ, pure, Except.pure]
    congr 2
    funext j
    simp
    norm_num
  · rw [C50_between (vecStateOps 1) [((fun _ => 0 : Vec 1), (0 : ℝ)), (fun _ => 1, 1)] (by simp [InOrder]) 0 (fun _ => 0)
      (fun _ => 1) 0 1 (1 / 4) (by simp) (by simp) (by norm_num) (by norm_num)]
    congr 2
    funext j
    simp [vecStateOps]

/-- **C73.** The documented single-query forms other than `float` raise. -/
theorem C73_single_query_forms (o : StateOps V n) (m : InterpMethod) (states : List (V × ℝ)) (k : ℤ) (t : ℝ) :
    stateInterp o m states (.int k) = .error .attributeError ∧
    stateInterp o m states (.stamped t) = .error .typeError := ⟨rfl, rfl⟩

example : InOrder [((fun _ => 0 : Vec 1), (0 : ℝ)), (fun _ => 1, 1), (fun _ => 5, 3)] := by
  simp [InOrder]

end Verif
