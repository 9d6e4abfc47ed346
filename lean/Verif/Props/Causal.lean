import Verif.Props.Order
import Verif.Props.FilterBatch
import Verif.Props.Honest
import Verif.Props.BatchEqualsFilter
import Verif.Props.Energy

/-!
C132: online operation. The estimates do not depend on the future, and a run can be continued from one of its estimates.
-/

set_option linter.unusedSectionVars false
set_option linter.unusedVariables false

namespace Verif

open Matrix

variable {X I Y : Type}

/-! ### Specification -/

open Classical in
/-- The entries of a log until the time `T`. -/
noncomputable def upTo {α : Type} (stamp : α → ℝ) (T : ℝ) (l : List α) : List α := l.filter fun a => decide (stamp a ≤ T)

open Classical in
/-- The entries of a log from the time `T` on. -/
noncomputable def since {α : Type} (stamp : α → ℝ) (T : ℝ) (l : List α) : List α := l.filter fun a => decide (T ≤ stamp a)

/-! ### Sorting and cutting -/

open Classical in
theorem sort_filter {α : Type} (stamp : α → ℝ) (p : α → Bool) (l : List α) :
    sortByStamp stamp (l.filter p) = (sortByStamp stamp l).filter p := by
  refine sorted_eq_of_filters stamp _ _ (sortByStamp_sorted _ _) ((sortByStamp_sorted _ _).filter _ _) fun t => ?_
  rw [sortByStamp_filter, List.filter_filter, List.filter_filter]
  have e : (fun a => decide (stamp a = t) && p a) = fun a => p a && decide (stamp a = t) := by
    funext a
    exact Bool.and_comm _ _
  rw [e, ← List.filter_filter, ← List.filter_filter, sortByStamp_filter]

theorem retained_upTo {α : Type} (stamp : α → ℝ) (t0 T : ℝ) (l : List α) :
    retained stamp t0 (upTo stamp T l) = upTo stamp T (retained stamp t0 l) := by
  unfold retained upTo
  rw [sort_filter, List.filter_filter, List.filter_filter]
  congr 1
  funext a
  exact Bool.and_comm _ _

theorem retained_since {α : Type} (stamp : α → ℝ) {t0 t : ℝ} (h : t0 ≤ t) (l : List α) :
    retained stamp t l = since stamp t (retained stamp t0 l) := by
  unfold retained since
  rw [List.filter_filter]
  congr 1
  funext a
  by_cases h1 : t ≤ stamp a
  · simp [h1, h.trans h1]
  · simp [h1]

/-! ### The schedule until a time -/

open Classical in
theorem schedule_upTo (is : I → ℝ) (ys : Y → ℝ) (T : ℝ) (YS : List Y) : ∀ (us : List I) (first : Bool), TimeSorted is us →
    ∃ post, schedule is ys first us YS = schedule is ys first (upTo is T us) (upTo ys T YS) ++ post
  | [], first, h => ⟨[], rfl⟩
  | [u], first, h => by
    refine ⟨[], ?_⟩
    unfold upTo
    by_cases hu : is u ≤ T
    · rw [List.filter_cons_of_pos (by simpa using hu)]
      rfl
    · rw [List.filter_cons_of_neg (by simpa using hu)]
      rfl
  | u :: u' :: us, first, h => by
    have huu : is u ≤ is u' := (List.pairwise_cons.mp h).1 u' (by simp)
    by_cases hu : is u' ≤ T
    · obtain ⟨post, ih⟩ := schedule_upTo is ys T YS (u' :: us) false (List.pairwise_cons.mp h).2
      refine ⟨post, ?_⟩
      have e : upTo is T (u :: u' :: us) = u :: u' :: upTo is T us := by
        unfold upTo
        rw [List.filter_cons_of_pos (by simpa using huu.trans hu), List.filter_cons_of_pos (by simpa using hu)]
      have e' : upTo is T (u' :: us) = u' :: upTo is T us := by
        unfold upTo
        rw [List.filter_cons_of_pos (by simpa using hu)]
      rw [e'] at ih
      rw [e]
      unfold schedule
      rw [ih]
      have e2 : (upTo ys T YS).filter (fun y => decide ((first = true ∨ is u ≤ ys y) ∧ ys y < is u'))
          = YS.filter (fun y => decide ((first = true ∨ is u ≤ ys y) ∧ ys y < is u')) := by
        unfold upTo
        rw [List.filter_filter]
        congr 1
        funext y
        by_cases hy : ys y < is u'
        · simp [hy, (hy.le.trans hu)]
        · simp [hy]
      rw [e2]
      simp only [List.append_assoc]
    · refine ⟨schedule is ys first (u :: u' :: us) YS, ?_⟩
      have h3 : upTo is T (u' :: us) = [] := by
        unfold upTo
        rw [List.filter_eq_nil_iff]
        intro a ha
        have : is u' ≤ is a := by
          rcases List.mem_cons.mp ha with rfl | ha
          · exact le_refl _
          · exact (List.pairwise_cons.mp (List.pairwise_cons.mp h).2).1 a ha
        simp only [decide_eq_true_eq, not_le]
        exact lt_of_lt_of_le (not_le.mp hu) this
      have h4 : ∃ l, upTo is T (u :: u' :: us) = l ∧ (l = [] ∨ l = [u]) := by
        unfold upTo at h3 ⊢
        by_cases h5 : is u ≤ T
        · exact ⟨_, rfl, .inr (by rw [List.filter_cons_of_pos (by simpa using h5), h3])⟩
        · exact ⟨_, rfl, .inl (by rw [List.filter_cons_of_neg (by simpa using h5), h3])⟩
      obtain ⟨l, h5, h6⟩ := h4
      rw [h5]
      rcases h6 with rfl | rfl
      · rfl
      · rfl

open Classical in
theorem immSchedule_upTo (is : I → ℝ) (ys : Y → ℝ) (T : ℝ) (YS : List Y) : ∀ (us : List I) (first : Bool), TimeSorted is us →
    ∃ post, immSchedule is ys first us YS = immSchedule is ys first (upTo is T us) (upTo ys T YS) ++ post
  | [], first, h => ⟨[], rfl⟩
  | [u], first, h => by
    refine ⟨[], ?_⟩
    unfold upTo
    by_cases hu : is u ≤ T
    · rw [List.filter_cons_of_pos (by simpa using hu)]
      rfl
    · rw [List.filter_cons_of_neg (by simpa using hu)]
      rfl
  | u :: u' :: us, first, h => by
    have huu : is u ≤ is u' := (List.pairwise_cons.mp h).1 u' (by simp)
    by_cases hu : is u' ≤ T
    · obtain ⟨post, ih⟩ := immSchedule_upTo is ys T YS (u' :: us) false (List.pairwise_cons.mp h).2
      refine ⟨post, ?_⟩
      have e : upTo is T (u :: u' :: us) = u :: u' :: upTo is T us := by
        unfold upTo
        rw [List.filter_cons_of_pos (by simpa using huu.trans hu), List.filter_cons_of_pos (by simpa using hu)]
      have e' : upTo is T (u' :: us) = u' :: upTo is T us := by
        unfold upTo
        rw [List.filter_cons_of_pos (by simpa using hu)]
      rw [e'] at ih
      rw [e]
      unfold immSchedule
      rw [ih]
      have e2 : (upTo ys T YS).filter (fun y => decide ((first = true ∨ is u ≤ ys y) ∧ ys y < is u'))
          = YS.filter (fun y => decide ((first = true ∨ is u ≤ ys y) ∧ ys y < is u')) := by
        unfold upTo
        rw [List.filter_filter]
        congr 1
        funext y
        by_cases hy : ys y < is u'
        · simp [hy, (hy.le.trans hu)]
        · simp [hy]
      rw [e2]
      simp only [List.append_assoc]
    · refine ⟨immSchedule is ys first (u :: u' :: us) YS, ?_⟩
      have h3 : upTo is T (u' :: us) = [] := by
        unfold upTo
        rw [List.filter_eq_nil_iff]
        intro a ha
        have : is u' ≤ is a := by
          rcases List.mem_cons.mp ha with rfl | ha
          · exact le_refl _
          · exact (List.pairwise_cons.mp (List.pairwise_cons.mp h).2).1 a ha
        simp only [decide_eq_true_eq, not_le]
        exact lt_of_lt_of_le (not_le.mp hu) this
      have h4 : ∃ l, upTo is T (u :: u' :: us) = l ∧ (l = [] ∨ l = [u]) := by
        unfold upTo at h3 ⊢
        by_cases h5 : is u ≤ T
        · exact ⟨_, rfl, .inr (by rw [List.filter_cons_of_pos (by simpa using h5), h3])⟩
        · exact ⟨_, rfl, .inl (by rw [List.filter_cons_of_neg (by simpa using h5), h3])⟩
      obtain ⟨l, h5, h6⟩ := h4
      rw [h5]
      rcases h6 with rfl | rfl
      · rfl
      · rfl

/-! ### Performing a first part -/

theorem exec_prefix (f : FilterApi X I Y) : ∀ (a b : List (Ev I Y)) (x : X),
    (∀ e, exec f a x = .error e → exec f (a ++ b) x = .error e) ∧
    (∀ rs rs', exec f a x = .ok rs → exec f (a ++ b) x = .ok rs' → rs <+: rs')
  | [], b, x => by
    refine ⟨fun e h => ?_, fun rs rs' h _ => ?_⟩
    · cases h
    · cases h
      exact List.nil_prefix
  | .record :: a, b, x => by
    obtain ⟨h1, h2⟩ := exec_prefix f a b x
    rw [List.cons_append]
    unfold exec
    refine ⟨fun e h => ?_, fun rs rs' h h' => ?_⟩
    · cases hr : exec f a x with
      | ok r => rw [hr] at h; cases h
      | error e' =>
        rw [hr] at h
        cases h
        rw [h1 e hr]
        rfl
    · cases hr : exec f a x with
      | error e' => rw [hr] at h; cases h
      | ok r =>
        cases hr' : exec f (a ++ b) x with
        | error e' => rw [hr'] at h'; cases h'
        | ok r' =>
          rw [hr] at h
          rw [hr'] at h'
          cases h
          cases h'
          exact List.cons_prefix_cons.mpr ⟨rfl, h2 r r' hr hr'⟩
  | .predict u t :: a, b, x => by
    rw [List.cons_append]
    unfold exec
    cases hp : predictTo f x u t with
    | error e' => exact ⟨fun e h => h, fun rs rs' h _ => by cases h⟩
    | ok x' => exact exec_prefix f a b x'
  | .correct y u :: a, b, x => by
    rw [List.cons_append]
    unfold exec
    cases hp : f.correct x y u with
    | error e' => exact ⟨fun e h => h, fun rs rs' h _ => by cases h⟩
    | ok x' => exact exec_prefix f a b x'

/-- C132: the run of a filter on the data until a time `T` gives the first estimates of the run on all the data; and if it raises,
the run on all the data raises the same. For `run_filter` and `run_gsf_filter`. -/
theorem C132_online (f : FilterApi X I Y) (x0 : X) (t0 : ℝ) (hx : f.xstamp x0 = some t0) (ins : List I) (meas : List Y) (T : ℝ)
    (hi : upTo f.istamp T ins = [] ∨ ∃ u ∈ upTo f.istamp T ins, t0 ≤ f.istamp u)
    (hm : upTo f.ystamp T meas = [] ∨ ∃ y ∈ upTo f.ystamp T meas, t0 ≤ f.ystamp y)
    (hi' : ins = [] ∨ ∃ u ∈ ins, t0 ≤ f.istamp u) (hm' : meas = [] ∨ ∃ y ∈ meas, t0 ≤ f.ystamp y) :
    (∀ e, runFilter f x0 (upTo f.istamp T ins) (upTo f.ystamp T meas) = .error e → runFilter f x0 ins meas = .error e) ∧
    (∀ rs rs', runFilter f x0 (upTo f.istamp T ins) (upTo f.ystamp T meas) = .ok rs → runFilter f x0 ins meas = .ok rs' →
      rs <+: rs') := by
  rw [C21_run_filter_schedule f x0 t0 hx _ _ hi hm, C21_run_filter_schedule f x0 t0 hx _ _ hi' hm', retained_upTo, retained_upTo]
  obtain ⟨post, h⟩ := schedule_upTo f.istamp f.ystamp T (retained f.ystamp t0 meas) (retained f.istamp t0 ins) true
    ((sortByStamp_sorted _ _).filter _ _)
  rw [h]
  exact exec_prefix f _ post x0

/-- C132 for `run_imm_filter`. -/
theorem C132_online_imm (f : FilterApi X I Y) (x0 : X) (t0 : ℝ) (hx : f.xstamp x0 = some t0) (ins : List I) (meas : List Y) (T : ℝ)
    (hi : upTo f.istamp T ins = [] ∨ ∃ u ∈ upTo f.istamp T ins, t0 ≤ f.istamp u)
    (hm : upTo f.ystamp T meas = [] ∨ ∃ y ∈ upTo f.ystamp T meas, t0 ≤ f.ystamp y)
    (hi' : ins = [] ∨ ∃ u ∈ ins, t0 ≤ f.istamp u) (hm' : meas = [] ∨ ∃ y ∈ meas, t0 ≤ f.ystamp y) :
    (∀ e, runImm f x0 (upTo f.istamp T ins) (upTo f.ystamp T meas) = .error e → runImm f x0 ins meas = .error e) ∧
    (∀ rs rs', runImm f x0 (upTo f.istamp T ins) (upTo f.ystamp T meas) = .ok rs → runImm f x0 ins meas = .ok rs' →
      rs <+: rs') := by
  rw [C69_run_imm_schedule f x0 t0 hx _ _ hi hm, C69_run_imm_schedule f x0 t0 hx _ _ hi' hm', retained_upTo, retained_upTo]
  obtain ⟨post, h⟩ := immSchedule_upTo f.istamp f.ystamp T (retained f.ystamp t0 meas) (retained f.istamp t0 ins) true
    ((sortByStamp_sorted _ _).filter _ _)
  rw [h]
  exact exec_prefix f _ post x0

theorem exec_length (f : FilterApi X I Y) : ∀ (es : List (Ev I Y)) (x : X) (rs : List X), exec f es x = .ok rs → rs.length = recorded es
  | [], x, rs, h => by cases h; rfl
  | .record :: es, x, rs, h => by
    obtain ⟨rs', h1, h2⟩ := bind_ok (show (exec f es x).bind (fun rs' => .ok (x :: rs')) = .ok rs from h)
    cases h2
    simp [recorded, exec_length f es x rs' h1]
  | .predict u t :: es, x, rs, h => by
    obtain ⟨x', h1, h2⟩ := bind_ok (show (predictTo f x u t).bind (fun x' => exec f es x') = .ok rs from h)
    exact exec_length f es x' rs h2
  | .correct y u :: es, x, rs, h => by
    obtain ⟨x', h1, h2⟩ := bind_ok (show (f.correct x y u).bind (fun x' => exec f es x') = .ok rs from h)
    exact exec_length f es x' rs h2

theorem recorded_corrects (u : I) : ∀ ys : List Y, recorded (ys.map fun y => Ev.correct y u) = 0
  | [] => rfl
  | y :: ys => recorded_corrects u ys

open Classical in
theorem recorded_schedule (is : I → ℝ) (ys : Y → ℝ) (YS : List Y) : ∀ (us : List I) (first : Bool),
    recorded (schedule is ys first us YS) = us.length - 1
  | [], first => rfl
  | [u], first => rfl
  | u :: u' :: us, first => by
    unfold schedule
    rw [recorded_append, recorded_append, recorded_corrects, recorded_schedule is ys YS (u' :: us) false]
    simp [recorded]
    omega

/-- C132: two logs that agree until the time `T` give the same estimates for all the intervals between inputs that end at `T` or before,
whatever the data after `T` are. -/
theorem C132_causal (f : FilterApi X I Y) (x0 : X) (t0 : ℝ) (hx : f.xstamp x0 = some t0) (ins ins' : List I) (meas meas' : List Y) (T : ℝ)
    (hi : ins = [] ∨ ∃ u ∈ ins, t0 ≤ f.istamp u) (hm : meas = [] ∨ ∃ y ∈ meas, t0 ≤ f.ystamp y)
    (hi' : ins' = [] ∨ ∃ u ∈ ins', t0 ≤ f.istamp u) (hm' : meas' = [] ∨ ∃ y ∈ meas', t0 ≤ f.ystamp y)
    (h1 : upTo f.istamp T ins = upTo f.istamp T ins') (h2 : upTo f.ystamp T meas = upTo f.ystamp T meas')
    (rs rs' : List X) (h : runFilter f x0 ins meas = .ok rs) (h' : runFilter f x0 ins' meas' = .ok rs') :
    ∀ k, k + 1 < (upTo f.istamp T (retained f.istamp t0 ins)).length → rs[k]? = rs'[k]? ∧ rs[k]? ≠ none := by
  rw [C21_run_filter_schedule f x0 t0 hx _ _ hi hm] at h
  rw [C21_run_filter_schedule f x0 t0 hx _ _ hi' hm'] at h'
  have s1 := schedule_upTo f.istamp f.ystamp T (retained f.ystamp t0 meas) (retained f.istamp t0 ins) true
    ((sortByStamp_sorted _ _).filter _ _)
  have s2 := schedule_upTo f.istamp f.ystamp T (retained f.ystamp t0 meas') (retained f.istamp t0 ins') true
    ((sortByStamp_sorted _ _).filter _ _)
  have hr := recorded_schedule f.istamp f.ystamp (upTo f.ystamp T (retained f.ystamp t0 meas)) (upTo f.istamp T (retained f.istamp t0 ins)) true
  have e1 : upTo f.istamp T (retained f.istamp t0 ins') = upTo f.istamp T (retained f.istamp t0 ins) := by
    rw [← retained_upTo, ← retained_upTo, h1]
  have e2 : upTo f.ystamp T (retained f.ystamp t0 meas') = upTo f.ystamp T (retained f.ystamp t0 meas) := by
    rw [← retained_upTo, ← retained_upTo, h2]
  rw [e1, e2] at s2
  obtain ⟨p1, s1⟩ := s1
  obtain ⟨p2, s2⟩ := s2
  rw [s1] at h
  rw [s2] at h'
  cases hc : exec f (schedule f.istamp f.ystamp true (upTo f.istamp T (retained f.istamp t0 ins))
      (upTo f.ystamp T (retained f.ystamp t0 meas))) x0 with
  | error e =>
    rw [(exec_prefix f _ p1 x0).1 e hc] at h
    cases h
  | ok qs =>
    have g1 := (exec_prefix f _ p1 x0).2 _ _ hc h
    have g2 := (exec_prefix f _ p2 x0).2 _ _ hc h'
    have g3 := exec_length f _ _ _ hc
    rw [hr] at g3
    intro k hk
    have hk' : k < qs.length := by omega
    obtain ⟨t1, rfl⟩ := g1
    obtain ⟨t2, rfl⟩ := g2
    rw [List.getElem?_append_left hk', List.getElem?_append_left hk']
    exact ⟨rfl, by rw [List.getElem?_eq_getElem hk']; simp⟩

/-! ### Continuing a run -/

/-- The run after one of its estimates. -/
theorem exec_at_record (f : FilterApi X I Y) : ∀ (pre post : List (Ev I Y)) (x : X) (rs : List X), exec f (pre ++ .record :: post) x = .ok rs →
    ∃ r, rs[recorded pre]? = some r ∧ exec f (.record :: post) r = .ok (rs.drop (recorded pre))
  | [], post, x, rs, h => by
    obtain ⟨rs', h1, h2⟩ := bind_ok (show (exec f post x).bind (fun rs' => .ok (x :: rs')) = .ok rs from h)
    cases h2
    exact ⟨x, rfl, h⟩
  | .record :: pre, post, x, rs, h => by
    obtain ⟨rs', h1, h2⟩ := bind_ok (show (exec f (pre ++ .record :: post) x).bind (fun rs' => .ok (x :: rs')) = .ok rs from h)
    cases h2
    exact exec_at_record f pre post x rs' h1
  | .predict u t :: pre, post, x, rs, h => by
    obtain ⟨x', h1, h2⟩ := bind_ok (show (predictTo f x u t).bind (fun x' => exec f (pre ++ .record :: post) x') = .ok rs from h)
    exact exec_at_record f pre post x' rs h2
  | .correct y u :: pre, post, x, rs, h => by
    obtain ⟨x', h1, h2⟩ := bind_ok (show (f.correct x y u).bind (fun x' => exec f (pre ++ .record :: post) x') = .ok rs from h)
    exact exec_at_record f pre post x' rs h2

open Classical in
/-- The schedule at the `j`-th interval. -/
theorem schedule_at (is : I → ℝ) (ys : Y → ℝ) (YS : List Y) : ∀ (us : List I) (first : Bool) (j : ℕ) (u u' : I) (rest : List I),
    us.drop j = u :: u' :: rest →
    ∃ pre, schedule is ys first us YS = pre ++ .record :: .predict u (is u') :: schedule is ys false (u' :: rest) YS ∧ recorded pre = j
  | v :: v' :: us, first, 0, u, u', rest, h => by
    cases h
    refine ⟨(YS.filter fun y => decide ((first = true ∨ is v ≤ ys y) ∧ ys y < is v')).map (fun y => Ev.correct y v), ?_,
      recorded_corrects v _⟩
    conv_lhs => unfold schedule
    rw [List.append_assoc]
    rfl
  | v :: v' :: us, first, j + 1, u, u', rest, h => by
    obtain ⟨pre, h1, h2⟩ := schedule_at is ys YS (v' :: us) false j u u' rest h
    refine ⟨(YS.filter fun y => decide ((first = true ∨ is v ≤ ys y) ∧ ys y < is v')).map (fun y => Ev.correct y v)
      ++ [.record, .predict v (is v')] ++ pre, ?_, ?_⟩
    · conv_lhs => unfold schedule
      rw [h1]
      simp only [List.append_assoc]
    · rw [recorded_append, recorded_append, recorded_corrects, h2]
      simp [recorded]
      omega
  | [v], first, 0, u, u', rest, h => by simp at h
  | [v], first, j + 1, u, u', rest, h => by simp at h
  | [], first, j, u, u', rest, h => by simp at h

open Classical in
/-- After the first interval, only the measurements from then on matter. -/
theorem schedule_since (is : I → ℝ) (ys : Y → ℝ) (YS : List Y) (T : ℝ) : ∀ (us : List I), TimeSorted is us → (∀ u ∈ us, T ≤ is u) →
    schedule is ys false us (since ys T YS) = schedule is ys false us YS
  | [], h, hT => rfl
  | [u], h, hT => rfl
  | u :: u' :: us, h, hT => by
    unfold schedule
    rw [schedule_since is ys YS T (u' :: us) (List.pairwise_cons.mp h).2 fun v hv => hT v (by simp [hv])]
    congr 3
    unfold since
    rw [List.filter_filter]
    congr 1
    funext y
    have := hT u (by simp)
    by_cases hy : is u ≤ ys y
    · simp [hy, this.trans hy]
    · simp [hy]

open Classical in
/-- In a sorted list of distinct stamps, cutting at the stamp of an entry is dropping the entries before it. -/
theorem since_drop {α : Type} (stamp : α → ℝ) : ∀ (l : List α) (j : ℕ) (a : α) (rest : List α), l.Pairwise (fun a c => stamp a < stamp c) →
    l.drop j = a :: rest → since stamp (stamp a) l = l.drop j
  | [], j, a, rest, h, hj => by simp at hj
  | c :: l, 0, a, rest, h, hj => by
    cases hj
    unfold since
    rw [List.drop_zero, List.filter_eq_self]
    intro d hd
    rcases List.mem_cons.mp hd with rfl | hd
    · simp
    · simpa using ((List.pairwise_cons.mp h).1 d hd).le
  | c :: l, j + 1, a, rest, h, hj => by
    have hj' : l.drop j = a :: rest := hj
    have ha : a ∈ l := List.mem_of_mem_drop (i := j) (by rw [hj']; simp)
    have hlt := (List.pairwise_cons.mp h).1 a ha
    show List.filter _ _ = l.drop j
    rw [List.filter_cons_of_neg (by simpa using hlt)]
    exact since_drop stamp l j a rest (List.pairwise_cons.mp h).2 hj'

theorem retained_strict {α : Type} (stamp : α → ℝ) (t0 : ℝ) {l : List α} (hd : (l.map stamp).Nodup) :
    (retained stamp t0 l).Pairwise (fun a c => stamp a < stamp c) := by
  have h1 : (sortByStamp stamp l).Pairwise (fun a c : α => stamp a ≤ stamp c) := sortByStamp_sorted _ _
  have h2 : ((sortByStamp stamp l).map stamp).Nodup := ((sortByStamp_perm stamp l).map _).nodup_iff.mpr hd
  rw [List.Nodup, List.pairwise_map] at h2
  unfold retained
  exact ((h1.and h2).imp (fun h => lt_of_le_of_ne h.1 h.2)).filter _

/-- C132: a run can be continued from one of its estimates, with the inputs as before and the measurements not yet fused (those from the
next input on): if the estimate is stamped as its input, that is no later measurement was fused before it was recorded, the run that
starts there gives it and all the estimates after it. For `run_filter` and `run_gsf_filter`. -/
theorem C132_continue (f : FilterApi X I Y) (x0 : X) (t0 : ℝ) (hx : f.xstamp x0 = some t0) (ins : List I) (meas : List Y)
    (hi : ins = [] ∨ ∃ u ∈ ins, t0 ≤ f.istamp u) (hm : meas = [] ∨ ∃ y ∈ meas, t0 ≤ f.ystamp y) (hd : (ins.map f.istamp).Nodup)
    (rs : List X) (h : runFilter f x0 ins meas = .ok rs) (j : ℕ) (u u' : I) (r : X)
    (hu : (retained f.istamp t0 ins)[j]? = some u) (hu' : (retained f.istamp t0 ins)[j + 1]? = some u')
    (hr : rs[j]? = some r) (hs : f.xstamp r = some (f.istamp u)) :
    runFilter f r ins (since f.ystamp (f.istamp u') meas) = .ok (rs.drop j) := by
  classical
  have hst := retained_strict f.istamp t0 hd
  have hI : TimeSorted f.istamp (retained f.istamp t0 ins) := hst.imp le_of_lt
  obtain ⟨hj, ej⟩ := List.getElem?_eq_some_iff.mp hu
  obtain ⟨hj', ej'⟩ := List.getElem?_eq_some_iff.mp hu'
  have hdrop : (retained f.istamp t0 ins).drop j = u :: u' :: (retained f.istamp t0 ins).drop (j + 2) := by
    rw [List.drop_eq_getElem_cons hj, List.drop_eq_getElem_cons hj', ej, ej']
  have hmem : u ∈ retained f.istamp t0 ins := List.mem_of_getElem? hu
  have hut : t0 ≤ f.istamp u := by
    unfold retained at hmem
    simpa using (List.mem_filter.mp hmem).2
  have huu : f.istamp u < f.istamp u' := by
    have := List.pairwise_iff_getElem.mp hst j (j + 1) hj hj' (by omega)
    rwa [ej, ej'] at this
  rw [C21_run_filter_schedule f x0 t0 hx _ _ hi hm] at h
  obtain ⟨pre, s1, s2⟩ := schedule_at f.istamp f.ystamp (retained f.ystamp t0 meas) _ true j u u' _ hdrop
  rw [s1] at h
  obtain ⟨r', q1, q2⟩ := exec_at_record f pre _ x0 rs h
  rw [s2] at q1 q2
  rw [hr] at q1
  cases q1
  have hmi : u ∈ ins := by
    unfold retained at hmem
    exact (sortByStamp_mem _).mp (List.mem_filter.mp hmem).1
  have hm2 : since f.ystamp (f.istamp u') meas = [] ∨ ∃ y ∈ since f.ystamp (f.istamp u') meas, f.istamp u ≤ f.ystamp y := by
    cases hc : since f.ystamp (f.istamp u') meas with
    | nil => exact .inl rfl
    | cons y ys =>
      refine .inr ⟨y, by simp, ?_⟩
      have : y ∈ since f.ystamp (f.istamp u') meas := by rw [hc]; simp
      have h3 : f.istamp u' ≤ f.ystamp y := by
        unfold since at this
        simpa using (List.mem_filter.mp this).2
      linarith
  rw [C21_run_filter_schedule f r (f.istamp u) hs _ _ (.inr ⟨u, hmi, le_refl _⟩) hm2, ← q2]
  have e1 : retained f.istamp (f.istamp u) ins = u :: u' :: (retained f.istamp t0 ins).drop (j + 2) := by
    rw [retained_since f.istamp hut, since_drop f.istamp _ j u _ hst hdrop, hdrop]
  have e2 : retained f.ystamp (f.istamp u) (since f.ystamp (f.istamp u') meas) = since f.ystamp (f.istamp u') (retained f.ystamp t0 meas) := by
    unfold retained since
    rw [sort_filter, List.filter_filter, List.filter_filter]
    congr 1
    funext y
    by_cases hy : f.istamp u' ≤ f.ystamp y
    · simp [hy, huu.le.trans hy, (hut.trans huu.le).trans hy]
    · simp [hy]
  rw [e1, e2]
  have hsub : TimeSorted f.istamp (u' :: (retained f.istamp t0 ins).drop (j + 2)) := by
    have : TimeSorted f.istamp ((retained f.istamp t0 ins).drop j) := List.Pairwise.sublist (List.drop_sublist _ _) hI
    rw [hdrop] at this
    exact (List.pairwise_cons.mp this).2
  have e3 : schedule f.istamp f.ystamp true (u :: u' :: (retained f.istamp t0 ins).drop (j + 2))
      (since f.ystamp (f.istamp u') (retained f.ystamp t0 meas))
      = .record :: .predict u (f.istamp u') :: schedule f.istamp f.ystamp false (u' :: (retained f.istamp t0 ins).drop (j + 2))
        (retained f.ystamp t0 meas) := by
    conv_lhs => unfold schedule
    rw [schedule_since f.istamp f.ystamp (retained f.ystamp t0 meas) (f.istamp u') _ hsub (by
      intro v hv
      rcases List.mem_cons.mp hv with rfl | hv
      · exact le_refl _
      · exact (List.pairwise_cons.mp hsub).1 v hv)]
    have e4 : (since f.ystamp (f.istamp u') (retained f.ystamp t0 meas)).filter
        (fun y => decide ((true = true ∨ f.istamp u ≤ f.ystamp y) ∧ f.ystamp y < f.istamp u')) = [] := by
      rw [List.filter_eq_nil_iff]
      intro y hy
      have h3 : f.istamp u' ≤ f.ystamp y := by
        unfold since at hy
        simpa using (List.mem_filter.mp hy).2
      simp [h3]
    rw [e4]
    rfl
  rw [e3]

open Classical in
/-- C132, the limit of continuing: if the estimate is stamped after its input (a later measurement was fused before it was recorded),
the input is dropped as older than the estimate, and the continued run is always one estimate short. -/
theorem C132_late (f : FilterApi X I Y) (x0 : X) (t0 : ℝ) (hx : f.xstamp x0 = some t0) (ins : List I) (meas meas' : List Y)
    (hi : ins = [] ∨ ∃ u ∈ ins, t0 ≤ f.istamp u) (hm : meas = [] ∨ ∃ y ∈ meas, t0 ≤ f.ystamp y) (hd : (ins.map f.istamp).Nodup)
    (rs : List X) (h : runFilter f x0 ins meas = .ok rs) (j : ℕ) (u u' : I) (r : X) (s : ℝ)
    (hu : (retained f.istamp t0 ins)[j]? = some u) (hu' : (retained f.istamp t0 ins)[j + 1]? = some u')
    (hr : rs[j]? = some r) (hs : f.xstamp r = some s) (h1 : f.istamp u < s) (h2 : s ≤ f.istamp u')
    (hm' : meas' = [] ∨ ∃ y ∈ meas', s ≤ f.ystamp y) (rs' : List X) (h' : runFilter f r ins meas' = .ok rs') :
    rs'.length + 1 = (rs.drop j).length := by
  have hst := retained_strict f.istamp t0 hd
  obtain ⟨hj, ej⟩ := List.getElem?_eq_some_iff.mp hu
  obtain ⟨hj', ej'⟩ := List.getElem?_eq_some_iff.mp hu'
  have hmem : u' ∈ retained f.istamp t0 ins := List.mem_of_getElem? hu'
  have hmi : u' ∈ ins := by
    unfold retained at hmem
    exact (sortByStamp_mem _).mp (List.mem_filter.mp hmem).1
  have hut : t0 ≤ f.istamp u := by
    have hmem : u ∈ retained f.istamp t0 ins := List.mem_of_getElem? hu
    unfold retained at hmem
    simpa using (List.mem_filter.mp hmem).2
  have hdrop : (retained f.istamp t0 ins).drop (j + 1) = u' :: (retained f.istamp t0 ins).drop (j + 2) := by
    rw [List.drop_eq_getElem_cons hj', ej']
  rw [C21_run_filter_schedule f x0 t0 hx _ _ hi hm] at h
  rw [C21_run_filter_schedule f r s hs _ _ (.inr ⟨u', hmi, h2⟩) hm'] at h'
  have l1 := exec_length f _ _ _ h
  have l2 := exec_length f _ _ _ h'
  rw [recorded_schedule] at l1 l2
  have e : retained f.istamp s ins = (retained f.istamp t0 ins).drop (j + 1) := by
    rw [retained_since f.istamp (hut.trans h1.le), ← since_drop f.istamp _ (j + 1) u' _ hst hdrop]
    unfold since
    refine List.filter_congr fun v hv => ?_
    obtain ⟨i, hi', rfl⟩ := List.getElem_of_mem hv
    apply decide_eq_decide.mpr
    constructor
    · intro hsv
      by_contra hc
      have hij : i ≤ j := by
        by_contra hij
        have : f.istamp u' ≤ f.istamp (retained f.istamp t0 ins)[i] := by
          rcases Nat.eq_or_lt_of_le (Nat.succ_le_of_lt (not_le.mp hij)) with he | hlt
          · have : (retained f.istamp t0 ins)[i] = u' := by
              rw [← ej']
              congr 1
              omega
            rw [this]
          · have := List.pairwise_iff_getElem.mp hst (j + 1) i hj' hi' hlt
            rw [ej'] at this
            exact this.le
        exact hc this
      have : f.istamp (retained f.istamp t0 ins)[i] ≤ f.istamp u := by
        rcases Nat.eq_or_lt_of_le hij with he | hlt
        · subst he
          rw [ej]
        · have := List.pairwise_iff_getElem.mp hst i j hi' hj hlt
          rw [ej] at this
          exact this.le
      linarith
    · exact fun hv => h2.trans hv
  rw [e, List.length_drop] at l2
  rw [List.length_drop]
  omega

/-! ### Examples -/

section examples

noncomputable abbrev walkFilter : EkfEnv (Vec 1) (Vec 1) 1 :=
  linFilter (fun (_ : Inp (Vec 1)) _ => (1 : Mat 1 1)) (fun u dt => dt • u.value) (fun _ _ => (1 : Mat 1 1)) (fun _ => 0)

/-- A measurement at the initial time. -/
noncomputable def exMeas132 : StMeas (Vec 1) 1 := ⟨linMeas (1 : Mat 1 1) 1 (fun _ => 3) (some 0), 0, rfl⟩

theorem ex132_ok (ins : List (StInp (Vec 1))) (meas : List (StMeas (Vec 1) 1)) (hi : ins = [] ∨ ∃ u ∈ ins, (0 : ℝ) ≤ u.stamp)
    (hm : meas = [] ∨ ∃ y ∈ meas, (0 : ℝ) ≤ y.stamp) (hd : (ins.map StInp.stamp).Nodup) (hl : ∀ y ∈ meas, LinearMeas y) :
    ∃ rs, runFilter (ekfApi walkFilter) ⟨⟨0, some 0⟩, 1⟩ ins meas = .ok rs := by
  obtain ⟨rs, h, -⟩ := C88_run_filter (n := 1) (fun (_ : Inp (Vec 1)) _ => (1 : Mat 1 1)) (fun u dt => dt • u.value)
    (fun _ _ => (1 : Mat 1 1)) (fun _ => 0) (fun u dt hdt => Matrix.PosDef.one) ⟨⟨0, some 0⟩, 1⟩ 0 Matrix.PosDef.one rfl ins meas hi hm hd hl
  exact ⟨rs, h⟩

theorem ex132_linear : ∀ y ∈ [exMeas88, exMeas90], LinearMeas y := by
  intro y hy
  simp only [List.mem_cons, List.not_mem_nil, or_false] at hy
  rcases hy with rfl | rfl
  · exact ⟨(1 : Mat 1 1), (1 : Mat 1 1), Matrix.PosDef.one, rfl⟩
  · exact ⟨(1 : Mat 1 1), (1 : Mat 1 1), Matrix.PosDef.one, rfl⟩

theorem ex132_run (x : SWC (Vec 1) 1) (hx : x.state.stamp = some 0) (hP : x.cov.PosDef) :
    runFilter (ekfApi walkFilter) x [⟨1, 0⟩, ⟨1, 1⟩] [exMeas132] = .ok [linPost (1 : Mat 1 1) 1 (fun _ => 3) 0 x] := by
  classical
  rw [C21_run_filter_schedule (ekfApi walkFilter) x 0 hx _ _ (.inr ⟨⟨1, 0⟩, by simp, le_refl _⟩) (.inr ⟨exMeas132, by simp, le_refl _⟩)]
  have e1 : retained (StInp.stamp (U := Vec 1)) 0 [⟨1, 0⟩, ⟨1, 1⟩] = [⟨1, 0⟩, ⟨1, 1⟩] := by
    unfold retained
    rw [sortByStamp_of_sorted _ _ (by simp [TimeSorted]), List.filter_eq_self]
    intro x hx
    simp at hx
    rcases hx with rfl | rfl <;> simp
  have e2 : retained StMeas.stamp 0 [exMeas132] = [exMeas132] := by
    unfold retained
    rw [sortByStamp_of_sorted _ _ (by simp [TimeSorted]), List.filter_eq_self]
    intro x hx
    rw [List.mem_singleton.mp hx]
    simp [exMeas132]
  have e3 : schedule (StInp.stamp (U := Vec 1)) StMeas.stamp true [⟨1, 0⟩, ⟨1, 1⟩] [exMeas132]
      = [Ev.correct exMeas132 ⟨1, 0⟩, Ev.record, Ev.predict ⟨1, 0⟩ 1] := by
    have h1 : exMeas132.stamp < 1 := by norm_num [exMeas132]
    simp [schedule, h1]
  show exec (ekfApi walkFilter) (schedule StInp.stamp StMeas.stamp true (retained StInp.stamp 0 [⟨1, 0⟩, ⟨1, 1⟩])
    (retained StMeas.stamp 0 [exMeas132])) x = _
  rw [e1, e2, e3]
  have hc := psd_step_hereD (U := Vec 1) (fun _ _ => (1 : Mat 1 1)) (fun u dt => dt • u.value) (fun _ _ => (1 : Mat 1 1)) (fun _ => 0)
    (some ⟨1, some 0⟩) (1 : Mat 1 1) (R := 1) (fun _ => 3) 0 PosDef.one hx hP.posSemidef (le_refl _) (by norm_num)
  have hc' : (ekfApi walkFilter).correct x exMeas132 ⟨1, 0⟩ = .ok (linPost (1 : Mat 1 1) 1 (fun _ => 3) 0 x) := by
    show (walkFilter.correctD x (linMeas (1 : Mat 1 1) 1 (fun _ => 3) (some 0)) (some ⟨1, some 0⟩) none none).map Prod.fst = _
    rw [hc]
    rfl
  have hp := psd_step_predict (U := Vec 1) (fun _ _ => (1 : Mat 1 1)) (fun u dt => dt • u.value) (fun _ _ => (1 : Mat 1 1)) (fun _ => 0)
    ⟨1, 0⟩ (x := linPost (1 : Mat 1 1) 1 (fun _ => 3) 0 x) (τ := 0) (t := 1) rfl (by norm_num) (kCov_psd hP.posSemidef _ PosDef.one)
    PosSemidef.one
  unfold exec
  rw [hc']
  show (exec (ekfApi walkFilter) [Ev.record, Ev.predict ⟨1, 0⟩ 1] (linPost (1 : Mat 1 1) 1 (fun _ => 3) 0 x)) = _
  unfold exec exec
  rw [hp]
  rfl

/-- C132: the measurements that an estimate has seen must not be passed again. A measurement stamped as the estimate is not older
than it: passing the whole log to the continued run fuses it a second time, and the covariance gets too small. -/
theorem C132_again : ∃ r r2 : SWC (Vec 1) 1,
    runFilter (ekfApi walkFilter) ⟨⟨0, some 0⟩, 1⟩ [⟨1, 0⟩, ⟨1, 1⟩] [exMeas132] = .ok [r] ∧ r.state.stamp = some 0 ∧
    runFilter (ekfApi walkFilter) r [⟨1, 0⟩, ⟨1, 1⟩] [exMeas132] = .ok [r2] ∧ r2.cov ≠ r.cov ∧
    runFilter (ekfApi walkFilter) r [⟨1, 0⟩, ⟨1, 1⟩] (since StMeas.stamp 1 [exMeas132]) = .ok [r] := by
  classical
  have hpd : (linPost (1 : Mat 1 1) 1 (fun _ => 3) 0 (⟨⟨0, some 0⟩, 1⟩ : SWC (Vec 1) 1)).cov.PosDef := linPost_pd PosDef.one PosDef.one
  have h1 := ex132_run ⟨⟨0, some 0⟩, 1⟩ rfl PosDef.one
  refine ⟨_, _, h1, rfl, ex132_run _ rfl hpd, ?_, ?_⟩
  · intro hc
    have hc' : kCov (linPost (1 : Mat 1 1) 1 (fun _ => 3) 0 (⟨⟨0, some 0⟩, 1⟩ : SWC (Vec 1) 1)).cov (1 : Mat 1 1) 1
        = (linPost (1 : Mat 1 1) 1 (fun _ => 3) 0 (⟨⟨0, some 0⟩, 1⟩ : SWC (Vec 1) 1)).cov := hc
    generalize (linPost (1 : Mat 1 1) 1 (fun _ => 3) 0 (⟨⟨0, some 0⟩, 1⟩ : SWC (Vec 1) 1)).cov = P at hc' hpd
    rw [kCov_info hpd _ PosDef.one] at hc'
    have h2 := congrArg (·⁻¹) hc'
    simp only [transpose_one, inv_one, mul_one] at h2
    rw [nonsing_inv_nonsing_inv _ (by
      have := pd_det (info_pd hpd (1 : Mat 1 1) (PosDef.one (n := Fin 1)))
      simpa using this.isUnit)] at h2
    exact one_ne_zero (add_left_cancel (h2.trans (add_zero _).symm))
  · have hret : retained (StInp.stamp (U := Vec 1)) 0 [⟨1, 0⟩, ⟨1, 1⟩] = [⟨1, 0⟩, ⟨1, 1⟩] := by
      unfold retained
      rw [sortByStamp_of_sorted _ _ (by simp [TimeSorted]), List.filter_eq_self]
      intro x hx
      simp at hx
      rcases hx with rfl | rfl <;> simp
    have := C132_continue (ekfApi walkFilter) ⟨⟨0, some 0⟩, 1⟩ 0 rfl [⟨1, 0⟩, ⟨1, 1⟩] [exMeas132]
      (.inr ⟨⟨1, 0⟩, by simp, le_refl _⟩) (.inr ⟨exMeas132, by simp, le_refl _⟩) (by norm_num [ekfApi]) _ h1 0 ⟨1, 0⟩ ⟨1, 1⟩ _
      (by show (retained StInp.stamp 0 [⟨1, 0⟩, ⟨1, 1⟩])[0]? = _; rw [hret]; rfl)
      (by show (retained StInp.stamp 0 [⟨1, 0⟩, ⟨1, 1⟩])[1]? = _; rw [hret]; rfl) rfl rfl
    exact this

/-- The hypotheses of `C132_online` and `C132_causal` are met by a run on four inputs and two measurements, and the one that was
available at `3/2`. -/
example : ∃ rs rs', runFilter (ekfApi walkFilter) ⟨⟨0, some 0⟩, 1⟩ [⟨1, 0⟩, ⟨1, 1⟩] [exMeas88, exMeas90] = .ok rs ∧
    runFilter (ekfApi walkFilter) ⟨⟨0, some 0⟩, 1⟩ [⟨1, 2⟩, ⟨1, 0⟩, ⟨1, 1⟩, ⟨0, 3⟩] [exMeas88, exMeas90] = .ok rs' ∧ rs <+: rs' ∧
    rs.length = 1 ∧ rs'.length = 3 := by
  classical
  have hi1 : ([⟨1, 0⟩, ⟨1, 1⟩] : List (StInp (Vec 1))) = [] ∨ ∃ u ∈ ([⟨1, 0⟩, ⟨1, 1⟩] : List (StInp (Vec 1))), (0 : ℝ) ≤ u.stamp :=
    .inr ⟨⟨1, 0⟩, by simp, le_refl _⟩
  have hi2 : ([⟨1, 2⟩, ⟨1, 0⟩, ⟨1, 1⟩, ⟨0, 3⟩] : List (StInp (Vec 1))) = [] ∨
      ∃ u ∈ ([⟨1, 2⟩, ⟨1, 0⟩, ⟨1, 1⟩, ⟨0, 3⟩] : List (StInp (Vec 1))), (0 : ℝ) ≤ u.stamp := .inr ⟨⟨1, 0⟩, by simp, le_refl _⟩
  have hm : [exMeas88, exMeas90] = [] ∨ ∃ y ∈ [exMeas88, exMeas90], (0 : ℝ) ≤ y.stamp := .inr ⟨exMeas88, by simp, by norm_num [exMeas88]⟩
  obtain ⟨rs, h1⟩ := ex132_ok [⟨1, 0⟩, ⟨1, 1⟩] [exMeas88, exMeas90] hi1 hm (by norm_num) ex132_linear
  obtain ⟨rs', h2⟩ := ex132_ok [⟨1, 2⟩, ⟨1, 0⟩, ⟨1, 1⟩, ⟨0, 3⟩] [exMeas88, exMeas90] hi2 hm (by norm_num) ex132_linear
  have e1 : upTo (StInp.stamp (U := Vec 1)) (3 / 2) [⟨1, 2⟩, ⟨1, 0⟩, ⟨1, 1⟩, ⟨0, 3⟩] = [⟨1, 0⟩, ⟨1, 1⟩] := by
    unfold upTo
    rw [List.filter_cons_of_neg (by norm_num), List.filter_cons_of_pos (by norm_num), List.filter_cons_of_pos (by norm_num),
      List.filter_cons_of_neg (by norm_num)]
    rfl
  have e2 : upTo StMeas.stamp (3 / 2) [exMeas88, exMeas90] = [exMeas88, exMeas90] := by
    unfold upTo
    rw [List.filter_cons_of_pos (by norm_num [exMeas88]), List.filter_cons_of_pos (by norm_num [exMeas90])]
    rfl
  have h := (C132_online (ekfApi walkFilter) ⟨⟨0, some 0⟩, 1⟩ 0 rfl [⟨1, 2⟩, ⟨1, 0⟩, ⟨1, 1⟩, ⟨0, 3⟩] [exMeas88, exMeas90] (3 / 2)
    (by rw [show upTo (ekfApi walkFilter).istamp _ _ = _ from e1]; exact hi1)
    (by rw [show upTo (ekfApi walkFilter).ystamp _ _ = _ from e2]; exact hm) hi2 hm).2 rs rs'
    (by rw [show upTo (ekfApi walkFilter).istamp _ _ = _ from e1, show upTo (ekfApi walkFilter).ystamp _ _ = _ from e2]; exact h1) h2
  have hlen : ∀ l : List (StInp (Vec 1)), (∀ u ∈ l, (0 : ℝ) ≤ u.stamp) → (retained StInp.stamp 0 l).length = l.length := by
    intro l hl
    unfold retained
    rw [List.filter_eq_self.mpr (fun u hu => by simpa using hl u ((sortByStamp_mem _).mp hu))]
    exact (sortByStamp_perm _ _).length_eq
  have l1 := (C22_results _ (ekf_stampLaws walkFilter) _ 0 rfl _ _ hi1 rs h1).1
  have l2 := (C22_results _ (ekf_stampLaws walkFilter) _ 0 rfl _ _ hi2 rs' h2).1
  refine ⟨rs, rs', h1, h2, h, ?_, ?_⟩
  · rw [l1]
    have := hlen [⟨1, 0⟩, ⟨1, 1⟩] (by simp)
    show (retained StInp.stamp 0 _).length - 1 = 1
    rw [this]
    rfl
  · rw [l2]
    have := hlen [⟨1, 2⟩, ⟨1, 0⟩, ⟨1, 1⟩, ⟨0, 3⟩] (by simp)
    show (retained StInp.stamp 0 _).length - 1 = 3
    rw [this]
    rfl

/-- The hypotheses of `C132_late` are met by the estimate that has seen the measurement at `1/2`: a run that continues from it gives one
estimate instead of two. -/
example : ∃ (rs rs' : List (SWC (Vec 1) 1)) (r : SWC (Vec 1) 1),
    runFilter (ekfApi walkFilter) ⟨⟨0, some 0⟩, 1⟩ [⟨1, 0⟩, ⟨1, 1⟩, ⟨0, 2⟩] [exMeas88] = .ok rs ∧ rs[0]? = some r ∧
    runFilter (ekfApi walkFilter) r [⟨1, 0⟩, ⟨1, 1⟩, ⟨0, 2⟩] [] = .ok rs' ∧ rs'.length + 1 = rs.length := by
  classical
  have hi : ([⟨1, 0⟩, ⟨1, 1⟩, ⟨0, 2⟩] : List (StInp (Vec 1))) = [] ∨
      ∃ u ∈ ([⟨1, 0⟩, ⟨1, 1⟩, ⟨0, 2⟩] : List (StInp (Vec 1))), (0 : ℝ) ≤ u.stamp := .inr ⟨⟨1, 0⟩, by simp, le_refl _⟩
  have hm : [exMeas88] = [] ∨ ∃ y ∈ [exMeas88], (0 : ℝ) ≤ y.stamp := .inr ⟨exMeas88, by simp, by norm_num [exMeas88]⟩
  obtain ⟨rs, h⟩ := ex132_ok [⟨1, 0⟩, ⟨1, 1⟩, ⟨0, 2⟩] [exMeas88] hi hm (by norm_num) fun y hy => ex132_linear y (by
    rw [List.mem_singleton.mp hy]; simp)
  have hc := lin_laterD (n := 1) (U := Vec 1) (fun _ _ => (1 : Mat 1 1)) (fun u dt => dt • u.value) (fun _ _ => (1 : Mat 1 1)) (fun _ => 0)
    ⟨1, 0⟩ (1 : Mat 1 1) (R := 1) (fun _ => 3) (1 / 2) PosDef.one (x := ⟨⟨0, some 0⟩, 1⟩) (τ := 0) rfl PosSemidef.one PosSemidef.one (by norm_num)
  have hc' : (ekfApi walkFilter).correct ⟨⟨0, some 0⟩, 1⟩ exMeas88 ⟨1, 0⟩ = .ok _ := correct_of_correctD hc
  have h' : exec (ekfApi walkFilter) (schedule StInp.stamp StMeas.stamp true (retained StInp.stamp 0 [⟨1, 0⟩, ⟨1, 1⟩, ⟨0, 2⟩])
      (retained StMeas.stamp 0 [exMeas88])) ⟨⟨0, some 0⟩, 1⟩ = .ok rs :=
    (C21_run_filter_schedule (ekfApi walkFilter) _ 0 rfl _ _ hi hm).symm.trans h
  rw [ex131_events exMeas88 rfl] at h'
  unfold exec at h'
  rw [hc'] at h'
  obtain ⟨rs0, h1, h2⟩ := bind_ok (show (exec (ekfApi walkFilter) _ _).bind (fun rs' => .ok (_ :: rs')) = .ok rs from h')
  cases h2
  have hP : (linPost (1 : Mat 1 1) 1 (fun _ => 3) (1 / 2) (linPred (U := Vec 1) (fun _ _ => (1 : Mat 1 1)) (fun u dt => dt • u.value)
      (fun _ _ => (1 : Mat 1 1)) ⟨1, some 0⟩ 0 (1 / 2) ⟨⟨0, some 0⟩, 1⟩)).cov.PosDef :=
    linPost_pd PosDef.one (innov_pd (P := (1 : Mat 1 1)) PosSemidef.one 1 PosDef.one)
  obtain ⟨rs', h3, -⟩ := C88_run_filter (n := 1) (fun (_ : Inp (Vec 1)) _ => (1 : Mat 1 1)) (fun u dt => dt • u.value)
    (fun _ _ => (1 : Mat 1 1)) (fun _ => 0) (fun u dt hdt => Matrix.PosDef.one) _ (1 / 2) hP rfl [⟨1, 0⟩, ⟨1, 1⟩, ⟨0, 2⟩] []
    (.inr ⟨⟨1, 1⟩, by simp, by norm_num⟩) (.inl rfl) (by norm_num) (by simp)
  refine ⟨_, rs', _, h, rfl, h3, ?_⟩
  have hret : retained (StInp.stamp (U := Vec 1)) 0 [⟨1, 0⟩, ⟨1, 1⟩, ⟨0, 2⟩] = [⟨1, 0⟩, ⟨1, 1⟩, ⟨0, 2⟩] := by
    unfold retained
    rw [sortByStamp_of_sorted _ _ (by simp [TimeSorted]), List.filter_eq_self]
    intro x hx
    simp at hx
    rcases hx with rfl | rfl | rfl <;> simp
  exact C132_late (ekfApi walkFilter) _ 0 rfl _ _ [] hi hm (by norm_num [ekfApi]) _ h 0 ⟨1, 0⟩ ⟨1, 1⟩ _ (1 / 2)
    (by show (retained StInp.stamp 0 _)[0]? = _; rw [hret]; rfl) (by show (retained StInp.stamp 0 _)[1]? = _; rw [hret]; rfl) rfl rfl
    (by show (0 : ℝ) < 1 / 2; norm_num) (by show (1 / 2 : ℝ) ≤ 1; norm_num) (.inl rfl) rs' h3

end examples

end Verif
