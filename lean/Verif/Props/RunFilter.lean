import Verif.Lemmas.RunFilter
import Verif.Props.Ekf
import Verif.Props.Imm

/-!
Property theorems about the drivers `run_filter`, `run_imm_filter`, `run_gsf_filter`
(C21, C22, C23, C69).
-/

namespace Verif

set_option linter.unusedVariables false
set_option linter.unusedSectionVars false

variable {X I Y : Type}

/-! ### Specification: the schedule of filter calls -/

/-- An event of a filter run. -/
inductive Ev (I Y : Type) where
  | correct (y : Y) (u : I)
  | record
  | predict (u : I) (toStamp : ℝ)

open Classical in
/-- The documented schedule: for every input interval `[t_k, t_{k+1})` correct with all measurements stamped in
it (in the first interval, also those before `t_0`), record, and predict to `t_{k+1}`. -/
noncomputable def schedule (istamp : I → ℝ) (ystamp : Y → ℝ) (first : Bool) :
    List I → List Y → List (Ev I Y)
  | u :: u' :: us, meas =>
    (meas.filter fun y => decide ((first = true ∨ istamp u ≤ ystamp y) ∧ ystamp y < istamp u')).map
        (fun y => Ev.correct y u)
      ++ [Ev.record, Ev.predict u (istamp u')]
      ++ schedule istamp ystamp false (u' :: us) meas
  | _, _ => []

/-- Performing events on a filter: the list of recorded estimates, or the first exception. -/
noncomputable def exec (f : FilterApi X I Y) : List (Ev I Y) → X → Except Err (List X)
  | [], _ => .ok []
  | .correct y u :: es, x => (f.correct x y u).bind fun x' => exec f es x'
  | .record :: es, x => (exec f es x).map fun rs => x :: rs
  | .predict u t :: es, x => (predictTo f x u t).bind fun x' => exec f es x'

/-- The measurements fused by a list of events, in order. -/
def fused : List (Ev I Y) → List Y
  | [] => []
  | .correct y _ :: es => y :: fused es
  | _ :: es => fused es

open Classical in
/-- The entries not older than `t0`, sorted by stamp. -/
noncomputable def retained {α : Type} (stamp : α → ℝ) (t0 : ℝ) (l : List α) : List α :=
  (sortByStamp stamp l).filter fun a => decide (t0 ≤ stamp a)

/-- `sortByStamp`, the sort used in this specification, is a stable sort by time. -/
theorem sortByStamp_spec {α : Type} (stamp : α → ℝ) (l : List α) :
    (sortByStamp stamp l).Perm l ∧ TimeSorted stamp (sortByStamp stamp l) ∧
    ∀ ys : List α, TimeSorted stamp ys → ys.Sublist l → ys.Sublist (sortByStamp stamp l) :=
  ⟨sortByStamp_perm _ _, sortByStamp_sorted _ _, sortByStamp_stable _ _⟩

/-! ### C21 -/

theorem exec_correct_append (f : FilterApi X I Y) (u : I) (ys : List Y) (es : List (Ev I Y)) (x : X) :
    exec f (ys.map (fun y => Ev.correct y u) ++ es) x =
      (fuseAll f u ys x).bind fun x' => exec f es x' := by
  induction ys generalizing x with
  | nil => rfl
  | cons y ys ih =>
    simp only [List.map_cons, List.cons_append, exec, fuseAll, List.foldlM_cons, bind, Except.bind]
    cases f.correct x y u with
    | error e => rfl
    | ok x' => exact ih x'

open Classical in
theorem runLoop_eq_exec (f : FilterApi X I Y) (YS : List Y) (hY : TimeSorted f.ystamp YS)
    (first : Bool) (u : I) (us : List I) (hI : TimeSorted f.istamp (u :: us)) (x : X) :
    runLoop f (u :: us) (YS.filter fun y => decide (first = true ∨ f.istamp u ≤ f.ystamp y)) x =
      exec f (schedule f.istamp f.ystamp first (u :: us) YS) x := by
  induction us generalizing u first x with
  | nil => rfl
  | cons u' us ih =>
    have huu : f.istamp u ≤ f.istamp u' := (List.pairwise_cons.1 hI).1 u' (by simp)
    have hI' : TimeSorted f.istamp (u' :: us) := (List.pairwise_cons.1 hI).2
    unfold runLoop schedule
    rw [fuseWhile_eq, takeWhile_sorted _ (hY.filter _ _), dropWhile_sorted _ (hY.filter _ _),
      List.append_assoc, exec_correct_append, List.filter_filter, List.filter_filter]
    have e1 : (YS.filter fun a => decide (f.ystamp a < f.istamp u') &&
          decide (first = true ∨ f.istamp u ≤ f.ystamp a)) =
        YS.filter fun y => decide ((first = true ∨ f.istamp u ≤ f.ystamp y) ∧
          f.ystamp y < f.istamp u') := by
      congr 1; funext a
      rw [Bool.decide_and, Bool.and_comm]
    have e2 : (YS.filter fun a => decide (f.istamp u' ≤ f.ystamp a) &&
          decide (first = true ∨ f.istamp u ≤ f.ystamp a)) =
        YS.filter fun y => decide (false = true ∨ f.istamp u' ≤ f.ystamp y) := by
      congr 1; funext a
      rw [← Bool.decide_and]
      apply decide_eq_decide.2
      constructor
      · rintro ⟨h, _⟩; exact .inr h
      · rintro (h | h)
        · cases h
        · exact ⟨h, .inr (by linarith)⟩
    rw [e1, e2]
    simp only [bind, Except.bind, pure, Except.pure, Except.map]
    cases fuseAll f u _ x with
    | error e => rfl
    | ok x1 =>
      simp only [List.cons_append, List.nil_append, exec, Except.map, Except.bind]
      cases predictTo f x1 u (f.istamp u') with
      | error e => rfl
      | ok x2 =>
        simp only
        rw [ih false u' hI' x2]

open Classical in
theorem dropBefore_fresh {α : Type} (stamp : α → ℝ) (t0 : ℝ) (l : List α)
    (h : l = [] ∨ ∃ a ∈ l, t0 ≤ stamp a) :
    dropBefore stamp t0 (sortByStamp stamp l) = retained stamp t0 l := by
  unfold dropBefore retained
  rw [dropWhile_sorted _ (sortByStamp_sorted _ _)]
  rcases h with rfl | ⟨a, ha, hat⟩
  · simp [sortByStamp]
  · rw [if_pos ⟨a, (sortByStamp_mem _).2 ha, hat⟩]

/-- **C21.** `run_filter` performs exactly the schedule of the documentation on the time-sorted data not older
than `x0`, for every filter and every (unsorted) data (with at least one entry that is not older than `x0` in
each non-empty list; the other case is C23). -/
theorem C21_run_filter_schedule (f : FilterApi X I Y) (x0 : X) (t0 : ℝ) (hx : f.xstamp x0 = some t0)
    (ins : List I) (meas : List Y)
    (hi : ins = [] ∨ ∃ u ∈ ins, t0 ≤ f.istamp u) (hm : meas = [] ∨ ∃ y ∈ meas, t0 ≤ f.ystamp y) :
    runFilter f x0 ins meas =
      exec f (schedule f.istamp f.ystamp true (retained f.istamp t0 ins)
        (retained f.ystamp t0 meas)) x0 := by
  classical
  have e : runFilter f x0 ins meas = runLoop f (dropBefore f.istamp t0 (sortByStamp f.istamp ins))
      (dropBefore f.ystamp t0 (sortByStamp f.ystamp meas)) x0 := by
    unfold runFilter; rw [hx]
  rw [e, dropBefore_fresh _ _ _ hi, dropBefore_fresh _ _ _ hm]
  have hI : TimeSorted f.istamp (retained f.istamp t0 ins) :=
    (sortByStamp_sorted _ _).filter _ _
  have hY : TimeSorted f.ystamp (retained f.ystamp t0 meas) :=
    (sortByStamp_sorted _ _).filter _ _
  cases hr : retained f.istamp t0 ins with
  | nil => rfl
  | cons u us =>
    rw [hr] at hI
    rw [← runLoop_eq_exec f _ hY true u us hI x0]
    congr 1
    symm
    rw [List.filter_eq_self]
    intro a _; simp

theorem fused_append (a b : List (Ev I Y)) : fused (a ++ b) = fused a ++ fused b := by
  induction a with
  | nil => rfl
  | cons e a ih => cases e <;> simp [fused, ih]

theorem fused_map (u : I) (ys : List Y) : fused (ys.map fun y => Ev.correct y u) = ys := by
  induction ys with
  | nil => rfl
  | cons y ys ih => simp [fused, ih]

/-- sorted list: splitting at a threshold -/
theorem filter_split {α : Type} (stamp : α → ℝ) {l : List α} (h : TimeSorted stamp l) (p q : α → Bool)
    (hpq : ∀ a ∈ l, ∀ b ∈ l, p a = true → q b = true → stamp a < stamp b)
    (hd : ∀ a, ¬ (p a = true ∧ q a = true)) :
    l.filter p ++ l.filter q = l.filter fun a => p a || q a := by
  induction l with
  | nil => rfl
  | cons a l ih =>
    rw [TimeSorted, List.pairwise_cons] at h
    have ih' := ih h.2 (fun a ha b hb => hpq a (List.mem_cons_of_mem _ ha) b (List.mem_cons_of_mem _ hb))
    by_cases hp : p a = true
    · have hq : ¬ q a = true := fun hq => hd a ⟨hp, hq⟩
      rw [List.filter_cons_of_pos hp, List.filter_cons_of_neg hq, List.cons_append, ih',
        List.filter_cons_of_pos (p := fun a => p a || q a) (by simp [hp])]
    · by_cases hq : q a = true
      · rw [List.filter_cons_of_neg hp, List.filter_cons_of_pos hq,
          List.filter_cons_of_pos (p := fun a => p a || q a) (by simp [hq])]
        have : l.filter p = [] := by
          rw [List.filter_eq_nil_iff]
          intro b hb hpb
          have h1 := hpq b (List.mem_cons_of_mem _ hb) a (by simp) hpb hq
          linarith [h.1 b hb]
        rw [this] at ih' ⊢
        simp only [List.nil_append] at ih' ⊢
        rw [ih']
      · rw [List.filter_cons_of_neg hp, List.filter_cons_of_neg hq,
          List.filter_cons_of_neg (p := fun a => p a || q a) (by simp [hp, hq]), ih']

open Classical in
theorem fused_schedule (is : I → ℝ) (ys : Y → ℝ) (YS : List Y) (hY : TimeSorted ys YS)
    (first : Bool) (u u' : I) (us : List I) (hI : TimeSorted is (u :: u' :: us)) :
    fused (schedule is ys first (u :: u' :: us) YS) =
      YS.filter fun y => decide ((first = true ∨ is u ≤ ys y) ∧
        ys y < is ((u' :: us).getLast (by simp))) := by
  induction us generalizing u u' first with
  | nil =>
    unfold schedule
    rw [fused_append, fused_append, fused_map]
    simp only [fused, schedule, List.append_nil]
    rfl
  | cons v us ih =>
    unfold schedule
    have hI' := (List.pairwise_cons.1 hI).2
    have h1 : is u ≤ is u' := (List.pairwise_cons.1 hI).1 u' (by simp)
    rw [fused_append, fused_append, fused_map, ih false u' v hI']
    have hlast : is u' ≤ is ((v :: us).getLast (by simp)) :=
      (List.pairwise_cons.1 hI').1 _ (List.getLast_mem _)
    simp only [fused, List.append_nil]
    rw [filter_split ys hY]
    · have hg : (u' :: v :: us).getLast (by simp) = (v :: us).getLast (by simp) :=
        List.getLast_cons (by simp)
      rw [hg]
      congr 1; funext y
      rw [← Bool.decide_or]
      apply decide_eq_decide.2
      constructor
      · rintro (⟨h, h'⟩ | ⟨h | h, h'⟩)
        · exact ⟨h, by linarith⟩
        · cases h
        · exact ⟨.inr (by linarith), h'⟩
      · rintro ⟨h, h'⟩
        by_cases hy : ys y < is u'
        · exact .inl ⟨h, hy⟩
        · exact .inr ⟨.inr (by linarith), h'⟩
    · intro a _ b _ ha hb
      simp at ha hb
      linarith [ha.2, hb.1]
    · intro a ⟨ha, hb⟩
      simp at ha hb
      linarith [ha.2, hb.1]

open Classical in
/-- **C21.** The measurements fused by that schedule are, each exactly once and in time order, the retained
measurements stamped before the last input (none with fewer than two inputs). -/
theorem C21_fused_exactly_once (is : I → ℝ) (ys : Y → ℝ) (t0 : ℝ) (ins : List I) (meas : List Y) :
    fused (schedule is ys true (retained is t0 ins) (retained ys t0 meas)) =
      if h : 2 ≤ (retained is t0 ins).length then
        (retained ys t0 meas).filter fun y => decide (ys y < is ((retained is t0 ins).getLast
          (by intro h'; rw [h'] at h; simp at h)))
      else [] := by
  have hI : TimeSorted is (retained is t0 ins) := (sortByStamp_sorted _ _).filter _ _
  have hY : TimeSorted ys (retained ys t0 meas) := (sortByStamp_sorted _ _).filter _ _
  generalize retained is t0 ins = IS at *
  match IS, hI with
  | [], _ => simp [schedule, fused]
  | [u], _ => simp [schedule, fused]
  | u :: u' :: us, hI =>
    rw [fused_schedule is ys _ hY true u u' us hI]
    simp

open Classical in
/-- **C21**, as counts: a measurement `y` of the log is fused as often as it occurs in the log if
`x0.stamp ≤ y.stamp < (last input stamp)`, and never otherwise. -/
theorem C21_count [DecidableEq Y] (is : I → ℝ) (ys : Y → ℝ) (t0 : ℝ) (ins : List I) (meas : List Y) (y : Y)
    (tl : ℝ) (hl : IsGreatest {t | ∃ u ∈ ins, is u = t} tl) (hn : 2 ≤ (retained is t0 ins).length) :
    (fused (schedule is ys true (retained is t0 ins) (retained ys t0 meas))).count y =
      if t0 ≤ ys y ∧ ys y < tl then meas.count y else 0 := by
  have hI : TimeSorted is (retained is t0 ins) := (sortByStamp_sorted _ _).filter _ _
  have hne : retained is t0 ins ≠ [] := by intro h'; rw [h'] at hn; simp at hn
  have hlast : is ((retained is t0 ins).getLast hne) = tl := by
    have hm := List.getLast_mem hne
    have h1 : is ((retained is t0 ins).getLast hne) ≤ tl := by
      apply hl.2
      exact ⟨_, (sortByStamp_mem is).1 (List.mem_filter.1 hm).1, rfl⟩
    apply le_antisymm h1
    obtain ⟨u, hu, hut⟩ := hl.1
    have h2 : t0 ≤ is u := by
      have := (List.mem_filter.1 hm).2
      simp at this
      linarith
    have h3 : u ∈ retained is t0 ins :=
      List.mem_filter.2 ⟨(sortByStamp_mem is).2 hu, by simpa using h2⟩
    rw [← hut]
    rw [← List.dropLast_append_getLast hne] at h3
    rcases List.mem_append.1 h3 with h3 | h3
    · have hI' := hI
      rw [TimeSorted, ← List.dropLast_append_getLast hne, List.pairwise_append] at hI'
      exact hI'.2.2 u h3 _ (by simp)
    · rw [List.mem_singleton] at h3; rw [← h3]
  rw [C21_fused_exactly_once, dif_pos hn, hlast]
  unfold retained
  rw [List.filter_filter]
  by_cases h : t0 ≤ ys y ∧ ys y < tl
  · rw [if_pos h, List.count_filter (by simp [h]), (sortByStamp_perm ys meas).count_eq]
  · rw [if_neg h, List.count_eq_zero]
    intro hy
    have := (List.mem_filter.1 hy).2
    simp at this
    exact h ⟨this.2, this.1⟩


/-! ### C22 -/

/-- What `run_filter` relies on: a successful `predict` by `dt` requires `dt ≥ 0` and advances the stamp by
`dt`; a successful `correct` leaves the stamp or moves it forward to the measurement's. -/
structure StampLaws (f : FilterApi X I Y) : Prop where
  predict : ∀ x u dt t x', f.xstamp x = some t → f.predict x u dt = .ok x' →
    0 ≤ dt ∧ f.xstamp x' = some (t + dt)
  correct : ∀ x y u t x', f.xstamp x = some t → f.correct x y u = .ok x' →
    ∃ t', f.xstamp x' = some t' ∧ t ≤ t' ∧ (t' = t ∨ t' = f.ystamp y)

/-- An `ExtendedKalmanFilter` (any models) satisfies these laws. -/
theorem ekf_stampLaws {V U : Type} {n : ℕ} (e : EkfEnv V U n) : StampLaws (ekfApi e) where
  predict := by
    intro x u dt t x' hx h
    obtain ⟨t1, d, hp, hd, ⟨h1, _⟩ | ⟨u', _, rfl⟩⟩ := predict_cases e x _ _ _ x' h
    · cases h1
    · obtain ⟨_, h2, h3⟩ := predictTime_ok hp
      have hx' : x.state.stamp = some t := hx
      rcases h2 with h2 | ⟨h2, _⟩
      · rcases h3 with h3 | ⟨h3, _⟩
        · rw [hx'] at h2; cases h2; cases h3
          exact ⟨hd, rfl⟩
        · cases h3
      · rw [hx'] at h2; cases h2
  correct := by
    intro x y u t x' hx h
    have hx' : x.state.stamp = some t := hx
    have h1 := C06_stamp e x y.meas _ _ _ x' h
    rw [hx', y.hstamp] at h1
    by_cases hc : y.stamp - t > 1 / 10 ^ 11
    · refine ⟨y.stamp, ?_, ?_, .inr rfl⟩
      · show x'.state.stamp = _
        rw [h1]; simp only [stampAfter, Option.isSome]; rw [if_pos hc]
      · have : (0 : ℝ) ≤ 1 / 10 ^ 11 := by positivity
        linarith
    · refine ⟨t, ?_, le_refl _, .inl rfl⟩
      show x'.state.stamp = _
      rw [h1]; simp only [stampAfter, Option.isSome]; rw [if_neg hc]

theorem fuseWhile_stamp {f : FilterApi X I Y} (L : StampLaws f) (u : I) (tn : ℝ) (rest : List Y) (x : X)
    (t : ℝ) (hx : f.xstamp x = some t) (x1 : X) (rest1 : List Y)
    (h : fuseWhile f u tn rest x = .ok (x1, rest1)) :
    ∃ s, f.xstamp x1 = some s ∧ t ≤ s := by
  induction rest generalizing x t with
  | nil => cases h; exact ⟨t, hx, le_refl _⟩
  | cons y rest ih =>
    unfold fuseWhile at h
    split at h
    · obtain ⟨x', h1, h2⟩ := bind_ok h
      obtain ⟨t', h3, h4, _⟩ := L.correct _ _ _ _ _ hx h1
      obtain ⟨s, h5, h6⟩ := ih x' t' h3 h2
      exact ⟨s, h5, h4.trans h6⟩
    · cases h; exact ⟨t, hx, le_refl _⟩

theorem runLoop_results {f : FilterApi X I Y} (L : StampLaws f) (u : I) (us : List I) (rest : List Y)
    (x : X) (t : ℝ) (hx : f.xstamp x = some t) (rs : List X) (h : runLoop f (u :: us) rest x = .ok rs) :
    rs.length = us.length ∧ ∀ k (hk : k < rs.length), ∃ s, f.xstamp rs[k] = some s ∧
      (k = 0 → t ≤ s) ∧
      (∀ v, (u :: us)[k]? = some v → k ≠ 0 → f.istamp v ≤ s) ∧
      (∀ v, (u :: us)[k + 1]? = some v → s ≤ f.istamp v) := by
  induction us generalizing u rest x t rs with
  | nil => cases h; simp
  | cons u' us ih =>
    unfold runLoop at h
    obtain ⟨⟨x1, rest1⟩, h1, h2⟩ := bind_ok h
    obtain ⟨x2, h3, h4⟩ := bind_ok h2
    obtain ⟨rs', h5, h6⟩ := bind_ok h4
    cases h6
    obtain ⟨s, hs1, hs2⟩ := fuseWhile_stamp L u _ rest x t hx x1 rest1 h1
    unfold predictTo at h3
    rw [hs1] at h3
    obtain ⟨hd, hx2⟩ := L.predict _ _ _ _ _ hs1 h3
    have hx2' : f.xstamp x2 = some (f.istamp u') := by rw [hx2]; congr 1; ring
    obtain ⟨hlen, hall⟩ := ih u' rest1 x2 _ hx2' rs' h5
    refine ⟨by simp [hlen], ?_⟩
    intro k hk
    rcases k with _ | k
    · refine ⟨s, hs1, fun _ => hs2, fun _ _ h => absurd rfl h, ?_⟩
      intro v hv
      simp at hv; subst hv
      linarith
    · obtain ⟨s', g1, g2, g3, g4⟩ := hall k (by simpa using hk)
      refine ⟨s', by simpa using g1, fun h => absurd h (by simp), ?_, ?_⟩
      · intro v hv _
        simp at hv
        rcases k with _ | k
        · simp at hv; subst hv; exact g2 rfl
        · exact g3 v hv (by simp)
      · intro v hv
        exact g4 v (by simpa using hv)

/-- **C22.** `run_filter` returns one result per interval of retained inputs; the `k`-th result is
stamped between the `k`-th retained input (the initial state, for `k = 0`) and the next input. Holds for every
filter obeying the stamp laws. -/
theorem C22_results (f : FilterApi X I Y) (L : StampLaws f) (x0 : X) (t0 : ℝ) (hx : f.xstamp x0 = some t0)
    (ins : List I) (meas : List Y)
    (hi : ins = [] ∨ ∃ u ∈ ins, t0 ≤ f.istamp u) (rs : List X) (h : runFilter f x0 ins meas = .ok rs) :
    rs.length = (retained f.istamp t0 ins).length - 1 ∧
    ∀ k (hk : k < rs.length), ∃ s, f.xstamp rs[k] = some s ∧
      (k = 0 → t0 ≤ s) ∧
      (∀ v, (retained f.istamp t0 ins)[k]? = some v → k ≠ 0 → f.istamp v ≤ s) ∧
      (∀ v, (retained f.istamp t0 ins)[k + 1]? = some v → s ≤ f.istamp v) := by
  have e : runFilter f x0 ins meas = runLoop f (dropBefore f.istamp t0 (sortByStamp f.istamp ins))
      (dropBefore f.ystamp t0 (sortByStamp f.ystamp meas)) x0 := by
    unfold runFilter; rw [hx]
  rw [e, dropBefore_fresh _ _ _ hi] at h
  cases hr : retained f.istamp t0 ins with
  | nil => rw [hr] at h; cases h; simp
  | cons u us =>
    rw [hr] at h
    simpa using runLoop_results L u us _ x0 t0 hx rs h

/-- **C22.** The stamps of the results never decrease. -/
theorem C22_nondecreasing (f : FilterApi X I Y) (L : StampLaws f) (x0 : X) (t0 : ℝ)
    (hx : f.xstamp x0 = some t0) (ins : List I) (meas : List Y)
    (hi : ins = [] ∨ ∃ u ∈ ins, t0 ≤ f.istamp u) (rs : List X) (h : runFilter f x0 ins meas = .ok rs)
    (j k : ℕ) (hjk : j < k) (hk : k < rs.length) :
    ∃ s s', f.xstamp (rs[j]'(hjk.trans hk)) = some s ∧ f.xstamp rs[k] = some s' ∧ t0 ≤ s ∧ s ≤ s' := by
  classical
  obtain ⟨hlen, hall⟩ := C22_results f L x0 t0 hx ins meas hi rs h
  have hI : TimeSorted f.istamp (retained f.istamp t0 ins) := (sortByStamp_sorted _ _).filter _ _
  obtain ⟨s, a1, a2, a3, a4⟩ := hall j (hjk.trans hk)
  obtain ⟨s', b1, b2, b3, b4⟩ := hall k hk
  have hkl : k < (retained f.istamp t0 ins).length := by omega
  have hjl : j + 1 < (retained f.istamp t0 ins).length := by omega
  refine ⟨s, s', a1, b1, ?_, ?_⟩
  · rcases Nat.eq_zero_or_pos j with h0 | h0
    · exact a2 h0
    · have h1 := a3 _ (List.getElem?_eq_getElem (by omega)) (by omega)
      have h2 := List.getElem_mem (l := retained f.istamp t0 ins) (n := j) (by omega)
      have h3 := (List.mem_filter.1 h2).2
      simp only [decide_eq_true_eq] at h3
      exact h3.trans h1
  · have h1 := a4 _ (List.getElem?_eq_getElem hjl)
    have h2 := b3 _ (List.getElem?_eq_getElem hkl) (by omega)
    have h3 : f.istamp (retained f.istamp t0 ins)[j + 1] ≤ f.istamp (retained f.istamp t0 ins)[k] := by
      rcases Nat.lt_or_ge (j + 1) k with h4 | h4
      · exact List.pairwise_iff_getElem.1 hI _ _ hjl hkl h4
      · have : j + 1 = k := by omega
        subst this; exact le_refl _
    linarith

/-- **C22.** An initial state without a stamp is refused with `ValueError`. -/
theorem C22_no_stamp (f : FilterApi X I Y) (x0 : X) (hx : f.xstamp x0 = none) (ins : List I)
    (meas : List Y) : runFilter f x0 ins meas = .error .valueError := by
  unfold runFilter; rw [hx]

/-- Filters that never raise `RuntimeError` when asked to move forward in time. -/
structure NoBackwards (f : FilterApi X I Y) : Prop where
  predict : ∀ x u dt, f.xstamp x ≠ none → 0 ≤ dt → f.predict x u dt ≠ .error .runtimeError
  correct : ∀ x y u t, f.xstamp x = some t → t ≤ f.ystamp y → f.correct x y u ≠ .error .runtimeError

theorem fuse_no_runtimeError {V U : Type} {n : ℕ} (e : EkfEnv V U n) (x : SWC V n) (y : Meas V n)
    (xjac : Option (St V)) (rej : Bool) : e.fuse x y xjac rej ≠ .error .runtimeError := by
  cases hy : y.model.evaluate x.state with
  | none => rw [fuse_none e x y xjac rej hy]; intro h; cases h
  | some yc =>
    by_cases hd : (innovCov x y xjac).det = 0
    · rw [fuse_singular e x y xjac rej yc hy hd]; intro h; cases h
    · cases rej
      · rw [fuse_noreject e x y xjac yc hy hd]; intro h; cases h
      · rw [fuse_reject e x y xjac yc hy hd]
        split
        · intro h; cases h
        · rw [fuse_noreject e x y xjac yc hy hd]; intro h; cases h

theorem ekf_noBackwards {V U : Type} {n : ℕ} (e : EkfEnv V U n) : NoBackwards (ekfApi e) where
  predict := by
    intro x u dt hx hd h
    have hx' : x.state.stamp ≠ none := hx
    obtain ⟨t, ht⟩ := Option.ne_none_iff_exists'.1 hx'
    have := predict_some_some e x ⟨u.value, some u.stamp⟩ t dt none ht hd
    rw [show (ekfApi e).predict x u dt = e.predict x (some ⟨u.value, some u.stamp⟩) (some dt) none from rfl,
      this] at h
    cases h
  correct := by
    intro x y u t hx ht h
    have hx' : x.state.stamp = some t := hx
    have ht' : t ≤ y.stamp := ht
    have h' : e.correct x y.meas (some ⟨u.value, some u.stamp⟩) none none = .error .runtimeError := h
    unfold EkfEnv.correct at h'
    cases hc : e.correctD x y.meas (some ⟨u.value, some u.stamp⟩) none none with
    | ok r => rw [hc] at h'; cases h'
    | error err =>
      rw [hc] at h'
      cases h'
      unfold EkfEnv.correctD at hc
      revert hc
      apply bind_ne
      · unfold EkfEnv.advance
        rw [hx', y.hstamp]
        simp only [hx']
        have : ¬ (y.stamp - t < -(10 ^ 10 : ℝ)) := by
          have : (0 : ℝ) ≤ 10 ^ 10 := by positivity
          intro h1; linarith
        rw [if_neg this]
        split
        · rename_i h1
          rw [predict_some_some e x ⟨u.value, some u.stamp⟩ t _ none hx' (by linarith)]
          intro h; cases h
        · intro h; cases h
      · intro xp hxp hf
        exact fuse_no_runtimeError e xp y.meas none _ hf

theorem runLoop_no_runtimeError {f : FilterApi X I Y} (L : StampLaws f) (N : NoBackwards f)
    (u : I) (us : List I) (rest : List Y) (x : X) (t : ℝ) (hx : f.xstamp x = some t)
    (hI : TimeSorted f.istamp (u :: us)) (hY : TimeSorted f.ystamp rest)
    (hu : t ≤ f.istamp u) (hy : ∀ y ∈ rest, t ≤ f.ystamp y) :
    runLoop f (u :: us) rest x ≠ .error .runtimeError := by
  induction us generalizing u rest x t with
  | nil => intro h; cases h
  | cons u' us ih =>
    have hI' := (List.pairwise_cons.1 hI).2
    have huu : f.istamp u ≤ f.istamp u' := (List.pairwise_cons.1 hI).1 u' (by simp)
    -- the inner loop
    have inner : ∀ (rest : List Y) (x : X) (t : ℝ), f.xstamp x = some t → TimeSorted f.ystamp rest →
        t ≤ f.istamp u' → (∀ y ∈ rest, t ≤ f.ystamp y) →
        fuseWhile f u (f.istamp u') rest x ≠ .error .runtimeError ∧
        ∀ x1 rest1, fuseWhile f u (f.istamp u') rest x = .ok (x1, rest1) →
          ∃ s, f.xstamp x1 = some s ∧ s ≤ f.istamp u' ∧ TimeSorted f.ystamp rest1 ∧
            ∀ y ∈ rest1, f.istamp u' ≤ f.ystamp y := by
      intro rest
      induction rest with
      | nil =>
        intro x t hx _ ht _
        refine ⟨(by intro h; cases h), ?_⟩
        intro x1 rest1 h; cases h
        exact ⟨t, hx, ht, List.Pairwise.nil, by simp⟩
      | cons y rest ihr =>
        intro x t hx hY ht hy
        have hY' := List.pairwise_cons.1 hY
        unfold fuseWhile
        split
        · rename_i hlt
          have step : ∀ x', f.correct x y u = .ok x' → ∃ t', f.xstamp x' = some t' ∧
              t' ≤ f.istamp u' ∧ ∀ y' ∈ rest, t' ≤ f.ystamp y' := by
            intro x' hc
            obtain ⟨t', h1, h2, h3⟩ := L.correct _ _ _ _ _ hx hc
            refine ⟨t', h1, ?_, ?_⟩
            · rcases h3 with rfl | rfl
              · exact ht
              · exact hlt.le
            · intro y' hy'
              rcases h3 with rfl | rfl
              · exact hy y' (List.mem_cons_of_mem _ hy')
              · exact hY'.1 y' hy'
          constructor
          · apply bind_ne (N.correct _ _ _ _ hx (hy y (by simp)))
            intro x' hc
            obtain ⟨t', h1, h2, h3⟩ := step x' hc
            exact (ihr x' t' h1 hY'.2 h2 h3).1
          · intro x1 rest1 h
            obtain ⟨x', hc, h⟩ := bind_ok h
            obtain ⟨t', h1, h2, h3⟩ := step x' hc
            exact (ihr x' t' h1 hY'.2 h2 h3).2 x1 rest1 h
        · rename_i hlt
          refine ⟨(by intro h; cases h), ?_⟩
          intro x1 rest1 h; cases h
          refine ⟨t, hx, ht, hY, ?_⟩
          intro y' hy'
          rcases List.mem_cons.1 hy' with rfl | hy'
          · linarith
          · linarith [hY'.1 y' hy']
    obtain ⟨i1, i2⟩ := inner rest x t hx hY (by linarith) hy
    unfold runLoop
    apply bind_ne i1
    rintro ⟨x1, rest1⟩ hf
    obtain ⟨s, hs, hsu, hY1, hy1⟩ := i2 x1 rest1 hf
    apply bind_ne
    · unfold predictTo
      rw [hs]
      exact N.predict _ _ _ (by rw [hs]; simp) (by linarith)
    · intro x2 hp
      unfold predictTo at hp
      rw [hs] at hp
      obtain ⟨_, hx2⟩ := L.predict _ _ _ _ _ hs hp
      have hx2' : f.xstamp x2 = some (f.istamp u') := by rw [hx2]; congr 1; ring
      apply bind_ne (ih u' rest1 x2 _ hx2' hI' hY1 (le_refl _) hy1)
      intro rs _ h; cases h

/-- **C22.** On data that is not older than the initial state, in whatever order it is supplied, `run_filter` never
asks the filter to go back in time: no `RuntimeError` (stated for every filter that does not raise it going
forward, which includes every `ExtendedKalmanFilter`, `ekf_noBackwards`). -/
theorem C22_no_runtimeError (f : FilterApi X I Y) (L : StampLaws f) (N : NoBackwards f) (x0 : X) (t0 : ℝ)
    (hx : f.xstamp x0 = some t0) (ins : List I) (meas : List Y)
    (hi : ins = [] ∨ ∃ u ∈ ins, t0 ≤ f.istamp u) (hm : meas = [] ∨ ∃ y ∈ meas, t0 ≤ f.ystamp y) :
    runFilter f x0 ins meas ≠ .error .runtimeError := by
  classical
  have e : runFilter f x0 ins meas = runLoop f (dropBefore f.istamp t0 (sortByStamp f.istamp ins))
      (dropBefore f.ystamp t0 (sortByStamp f.ystamp meas)) x0 := by
    unfold runFilter; rw [hx]
  rw [e, dropBefore_fresh _ _ _ hi, dropBefore_fresh _ _ _ hm]
  have hI : TimeSorted f.istamp (retained f.istamp t0 ins) :=
    (sortByStamp_sorted _ _).filter _ _
  have hY : TimeSorted f.ystamp (retained f.ystamp t0 meas) :=
    (sortByStamp_sorted _ _).filter _ _
  have hmem : ∀ {α : Type} (st : α → ℝ) (l : List α), ∀ a ∈ retained st t0 l, t0 ≤ st a := by
    intro α st l a ha
    have := (List.mem_filter.1 ha).2
    simpa using this
  cases hr : retained f.istamp t0 ins with
  | nil => intro h; cases h
  | cons u us =>
    rw [hr] at hI
    exact runLoop_no_runtimeError L N u us _ x0 t0 hx hI hY
      (hmem f.istamp ins u (by rw [hr]; simp)) (hmem f.ystamp meas)

/-! ### C23 -/

/-- **C23** (the part that holds). When the log has at least one measurement not older than `x0`, only
measurements not older than `x0` are fused. Missing: logs in which every measurement is older, for which the
claim is false (`C23_all_stale_fused`). -/
theorem C23_no_stale (is : I → ℝ) (ys : Y → ℝ) (t0 : ℝ) (ins : List I) (meas : List Y) (y : Y)
    (h : y ∈ fused (schedule is ys true (retained is t0 ins) (retained ys t0 meas))) : t0 ≤ ys y := by
  classical
  rw [C21_fused_exactly_once] at h
  split at h
  · have := (List.mem_filter.1 (List.mem_filter.1 h).1).2
    simpa using this
  · cases h

theorem dropBefore_stale {α : Type} (stamp : α → ℝ) (t0 : ℝ) (l : List α)
    (h : ∀ a ∈ l, stamp a < t0) :
    dropBefore stamp t0 (sortByStamp stamp l) = sortByStamp stamp l := by
  unfold dropBefore
  rw [if_neg]
  rintro ⟨a, ha, hat⟩
  exact absurd (h a ((sortByStamp_mem _).1 ha)) (not_lt.2 hat)

/-- **C23** (failure). For EVERY filter: if all the measurements are older than `x0`, none is dropped and
`run_filter` performs the schedule that fuses them all in the first interval. -/
theorem C23_all_stale_fused (f : FilterApi X I Y) (x0 : X) (t0 : ℝ) (hx : f.xstamp x0 = some t0)
    (ins : List I) (meas : List Y)
    (hi : 2 ≤ (retained f.istamp t0 ins).length) (hm : ∀ y ∈ meas, f.ystamp y < t0) :
    runFilter f x0 ins meas = exec f (schedule f.istamp f.ystamp true (retained f.istamp t0 ins)
        (sortByStamp f.ystamp meas)) x0 ∧
    fused (schedule f.istamp f.ystamp true (retained f.istamp t0 ins) (sortByStamp f.ystamp meas)) =
      sortByStamp f.ystamp meas := by
  classical
  have hi' : ins = [] ∨ ∃ u ∈ ins, t0 ≤ f.istamp u := by
    right
    obtain ⟨u, hu⟩ := List.exists_mem_of_length_pos (l := retained f.istamp t0 ins) (by omega)
    have := List.mem_filter.1 hu
    exact ⟨u, (sortByStamp_mem _).1 this.1, by simpa using this.2⟩
  have e : runFilter f x0 ins meas = runLoop f (dropBefore f.istamp t0 (sortByStamp f.istamp ins))
      (dropBefore f.ystamp t0 (sortByStamp f.ystamp meas)) x0 := by
    unfold runFilter; rw [hx]
  rw [e, dropBefore_fresh _ _ _ hi', dropBefore_stale _ _ _ hm]
  have hI : TimeSorted f.istamp (retained f.istamp t0 ins) :=
    (sortByStamp_sorted _ _).filter _ _
  have hY : TimeSorted f.ystamp (sortByStamp f.ystamp meas) := sortByStamp_sorted _ _
  have hmem : ∀ u ∈ retained f.istamp t0 ins, t0 ≤ f.istamp u := by
    intro a ha
    have := (List.mem_filter.1 ha).2
    simpa using this
  generalize retained f.istamp t0 ins = IS at *
  match IS, hI, hi, hmem with
  | u :: u' :: us, hI, _, hmem =>
    constructor
    · rw [← runLoop_eq_exec f _ hY true u _ hI x0]
      congr 1
      symm
      rw [List.filter_eq_self]
      intro a _; simp
    · rw [fused_schedule _ _ _ hY true u u' us hI, List.filter_eq_self]
      intro y hy
      have h1 := hm y ((sortByStamp_mem _).1 hy)
      have h2 := hmem ((u' :: us).getLast (by simp)) (List.mem_cons_of_mem _ (List.getLast_mem _))
      simp
      linarith

/-- **C23** (failure). If all inputs (at least two) are older than `x0` and there are no measurements, an EKF run
raises `RuntimeError` instead of ignoring them. -/
theorem C23_all_inputs_stale {V U : Type} {n : ℕ} (e : EkfEnv V U n) (x0 : SWC V n) (t0 : ℝ)
    (hx : x0.state.stamp = some t0) (ins : List (StInp U)) (h2 : 2 ≤ ins.length)
    (hi : ∀ u ∈ ins, u.stamp < t0) :
    runFilter (ekfApi e) x0 ins [] = .error .runtimeError := by
  have er : runFilter (ekfApi e) x0 ins [] =
      runLoop (ekfApi e) (dropBefore (ekfApi e).istamp t0 (sortByStamp (ekfApi e).istamp ins))
      (dropBefore (ekfApi e).ystamp t0 (sortByStamp (ekfApi e).ystamp [])) x0 := by
    unfold runFilter
    rw [show (ekfApi e).xstamp x0 = some t0 from hx]
  rw [er, dropBefore_stale (ekfApi e).istamp _ _ hi, dropBefore_stale _ _ _ (by simp)]
  have hl : (sortByStamp (ekfApi e).istamp ins).length = ins.length :=
    (sortByStamp_perm _ _).length_eq
  have hi' : ∀ u ∈ sortByStamp (ekfApi e).istamp ins, u.stamp < t0 :=
    fun u hu => hi u ((sortByStamp_mem _).1 hu)
  rw [show sortByStamp (ekfApi e).ystamp [] = [] by simp [sortByStamp]]
  generalize sortByStamp (ekfApi e).istamp ins = IS at *
  match IS, hl, hi' with
  | u :: u' :: us, _, hi' =>
    unfold runLoop
    have hp : predictTo (ekfApi e) x0 u ((ekfApi e).istamp u') = .error .runtimeError := by
      unfold predictTo
      rw [show (ekfApi e).xstamp x0 = some t0 from hx]
      show e.predict x0 (some ⟨u.value, some u.stamp⟩) (some (u'.stamp - t0)) none = _
      rw [predict_error_iff]
      unfold predictTime
      have := hi' u' (by simp)
      rw [hx]
      simp only [bind, Except.bind]
      rw [if_pos (by linarith)]
    simp only [fuseWhile, bind, Except.bind]
    rw [hp]
  | [_], hl, _ => simp at hl; omega
  | [], hl, _ => simp at hl; omega

/-- A stamped scalar measurement and inputs, for the witnesses. -/
noncomputable def stMeas1 (t : ℝ) : StMeas (Vec 1) 1 := ⟨meas1 t, t, rfl⟩

theorem retained_pair (t0 a b : ℝ) (h1 : t0 ≤ a) (h2 : a ≤ b) :
    retained (StInp.stamp (U := ℝ)) t0 [⟨0, a⟩, ⟨0, b⟩] = [⟨0, a⟩, ⟨0, b⟩] := by
  classical
  unfold retained
  rw [sortByStamp_of_sorted _ _ (by simp [TimeSorted, h2]), List.filter_eq_self]
  intro x hx
  simp at hx
  rcases hx with rfl | rfl
  · simpa using h1
  · simpa using h1.trans h2

/-- Witness for C23: the state is at time 10, the only measurement is from time 5, and `run_filter` fuses it. -/
theorem C23_witness :
    runFilter (ekfApi env1) (est1 10) [⟨0, 10⟩, ⟨0, 11⟩] [stMeas1 5] =
      (env1.correct (est1 10) (meas1 5) (some ⟨0, some 10⟩) none none).bind
        (fun x => (predictTo (ekfApi env1) x ⟨0, 10⟩ 11).map fun _ => [x]) := by
  have hr := retained_pair 10 10 11 (le_refl _) (by norm_num)
  have := (C23_all_stale_fused (ekfApi env1) (est1 10) 10 rfl [⟨0, 10⟩, ⟨0, 11⟩] [stMeas1 5]
    (by show 2 ≤ (retained (StInp.stamp (U := ℝ)) 10 [⟨0, 10⟩, ⟨0, 11⟩]).length; rw [hr]; simp)
    (by intro y hy; simp at hy; subst hy; show (5 : ℝ) < 10; norm_num)).1
  rw [this]
  show exec _ (schedule StInp.stamp StMeas.stamp true
    (retained (StInp.stamp (U := ℝ)) 10 [⟨0, 10⟩, ⟨0, 11⟩]) _) _ = _
  rw [hr, sortByStamp_of_sorted _ _ (by simp [TimeSorted])]
  have : (5 : ℝ) < 11 := by norm_num
  have hf : ([stMeas1 5].filter fun y => decide ((true = true ∨ StInp.stamp (⟨0, 10⟩ : StInp ℝ) ≤ y.stamp) ∧
      y.stamp < StInp.stamp (⟨0, 11⟩ : StInp ℝ))) = [stMeas1 5] := by
    simp [stMeas1, this]
  rw [schedule, hf]
  simp only [List.map_cons, List.map_nil, List.cons_append, List.nil_append, schedule, exec]
  show Except.bind (env1.correct (est1 10) (meas1 5) (some ⟨0, some 10⟩) none none) _ = _
  congr 1
  funext x
  cases predictTo (ekfApi env1) x ⟨0, 10⟩ 11 <;> rfl

/-- Non-vacuity of C21/C22: an unsorted log with one stale measurement, whose premises hold; the fused ones are the
two in the window. -/
example : ∃ x0 : SWC (Vec 1) 1, ∃ (ins : List (StInp ℝ)) (meas : List (StMeas (Vec 1) 1)),
    (ekfApi env1).xstamp x0 = some 0 ∧ (∃ u ∈ ins, (0 : ℝ) ≤ (ekfApi env1).istamp u) ∧
    (∃ y ∈ meas, (0 : ℝ) ≤ (ekfApi env1).ystamp y) ∧ ¬ TimeSorted StMeas.stamp meas ∧
    2 ≤ ins.length :=
  ⟨est1 0, [⟨0, 2⟩, ⟨0, 0⟩], [stMeas1 1, stMeas1 0, stMeas1 (-1)], rfl, ⟨⟨0, 2⟩, by simp, by
      show (0 : ℝ) ≤ 2; norm_num⟩, ⟨stMeas1 1, by simp, by show (0 : ℝ) ≤ 1; norm_num⟩, by
      intro h
      have := (List.pairwise_cons.1 h).1 (stMeas1 0) (by simp)
      simp [stMeas1] at this
      linarith, by simp⟩

/-! ### C69: `run_imm_filter` -/

open Classical in
/-- The schedule of `run_imm_filter`: record, then correct with the measurements of the interval, then
predict. -/
noncomputable def immSchedule (istamp : I → ℝ) (ystamp : Y → ℝ) (first : Bool) :
    List I → List Y → List (Ev I Y)
  | u :: u' :: us, meas =>
    [Ev.record]
      ++ (meas.filter fun y => decide ((first = true ∨ istamp u ≤ ystamp y) ∧ ystamp y < istamp u')).map
        (fun y => Ev.correct y u)
      ++ [Ev.predict u (istamp u')]
      ++ immSchedule istamp ystamp false (u' :: us) meas
  | _, _ => []

open Classical in
theorem runImmLoop_eq_exec (f : FilterApi X I Y) (YS : List Y) (hY : TimeSorted f.ystamp YS)
    (first : Bool) (u : I) (us : List I) (hI : TimeSorted f.istamp (u :: us)) (x : X) :
    runImmLoop f (u :: us) (YS.filter fun y => decide (first = true ∨ f.istamp u ≤ f.ystamp y)) x =
      exec f (immSchedule f.istamp f.ystamp first (u :: us) YS) x := by
  induction us generalizing u first x with
  | nil => rfl
  | cons u' us ih =>
    have huu : f.istamp u ≤ f.istamp u' := (List.pairwise_cons.1 hI).1 u' (by simp)
    have hI' : TimeSorted f.istamp (u' :: us) := (List.pairwise_cons.1 hI).2
    unfold runImmLoop immSchedule
    rw [fuseWhile_eq, takeWhile_sorted _ (hY.filter _ _), dropWhile_sorted _ (hY.filter _ _),
      List.append_assoc, List.append_assoc, List.singleton_append, exec, exec_correct_append,
      List.filter_filter, List.filter_filter]
    have e1 : (YS.filter fun a => decide (f.ystamp a < f.istamp u') &&
          decide (first = true ∨ f.istamp u ≤ f.ystamp a)) =
        YS.filter fun y => decide ((first = true ∨ f.istamp u ≤ f.ystamp y) ∧
          f.ystamp y < f.istamp u') := by
      congr 1; funext a
      rw [Bool.decide_and, Bool.and_comm]
    have e2 : (YS.filter fun a => decide (f.istamp u' ≤ f.ystamp a) &&
          decide (first = true ∨ f.istamp u ≤ f.ystamp a)) =
        YS.filter fun y => decide (false = true ∨ f.istamp u' ≤ f.ystamp y) := by
      congr 1; funext a
      rw [← Bool.decide_and]
      apply decide_eq_decide.2
      constructor
      · rintro ⟨h, _⟩; exact .inr h
      · rintro (h | h)
        · cases h
        · exact ⟨h, .inr (by linarith)⟩
    rw [e1, e2]
    simp only [bind, Except.bind, pure, Except.pure, Except.map]
    cases fuseAll f u _ x with
    | error e => rfl
    | ok x1 =>
      simp only [List.singleton_append, exec, Except.bind]
      cases predictTo f x1 u (f.istamp u') with
      | error e => rfl
      | ok x2 =>
        simp only
        rw [ih false u' hI' x2]

/-- **C69.** `run_imm_filter` performs exactly the schedule record / correct / predict per interval. -/
theorem C69_run_imm_schedule (f : FilterApi X I Y) (x0 : X) (t0 : ℝ) (hx : f.xstamp x0 = some t0)
    (ins : List I) (meas : List Y)
    (hi : ins = [] ∨ ∃ u ∈ ins, t0 ≤ f.istamp u) (hm : meas = [] ∨ ∃ y ∈ meas, t0 ≤ f.ystamp y) :
    runImm f x0 ins meas =
      exec f (immSchedule f.istamp f.ystamp true (retained f.istamp t0 ins)
        (retained f.ystamp t0 meas)) x0 := by
  classical
  have e : runImm f x0 ins meas = runImmLoop f (dropBefore f.istamp t0 (sortByStamp f.istamp ins))
      (dropBefore f.ystamp t0 (sortByStamp f.ystamp meas)) x0 := by
    unfold runImm; rw [hx]
  rw [e, dropBefore_fresh _ _ _ hi, dropBefore_fresh _ _ _ hm]
  have hI : TimeSorted f.istamp (retained f.istamp t0 ins) :=
    (sortByStamp_sorted _ _).filter _ _
  have hY : TimeSorted f.ystamp (retained f.ystamp t0 meas) :=
    (sortByStamp_sorted _ _).filter _ _
  cases hr : retained f.istamp t0 ins with
  | nil => rfl
  | cons u us =>
    rw [hr] at hI
    rw [← runImmLoop_eq_exec f _ hY true u us hI x0]
    congr 1
    symm
    rw [List.filter_eq_self]
    intro a _; simp

/-- Events after the last recording cannot change what was recorded (they can only raise). -/
theorem exec_drop_tail (f : FilterApi X I Y) (a b : List (Ev I Y)) (x : X) (rs : List X)
    (hb : ∀ e ∈ b, e ≠ Ev.record) (h : exec f (a ++ b) x = .ok rs) : exec f a x = .ok rs := by
  induction a generalizing x rs with
  | nil =>
    have : rs = [] := by
      clear * - hb h
      rw [List.nil_append] at h
      induction b generalizing x rs with
      | nil => cases h; rfl
      | cons e b ih =>
        cases e with
        | record => exact absurd rfl (hb _ (by simp))
        | correct y u =>
          rw [exec] at h
          obtain ⟨x', _, h2⟩ := bind_ok (a := f.correct x y u) h
          exact ih (fun e he => hb e (List.mem_cons_of_mem _ he)) x' rs h2
        | predict u t =>
          rw [exec] at h
          obtain ⟨x', _, h2⟩ := bind_ok (a := predictTo f x u t) h
          exact ih (fun e he => hb e (List.mem_cons_of_mem _ he)) x' rs h2
    subst this; rfl
  | cons e a ih =>
    cases e with
    | record =>
      rw [List.cons_append, exec] at h
      cases hr : exec f (a ++ b) x with
      | error e => rw [hr] at h; cases h
      | ok rs' =>
        rw [hr] at h
        cases h
        rw [exec, ih x rs' hr]; rfl
    | correct y u =>
      rw [List.cons_append, exec] at h
      obtain ⟨x', h1, h2⟩ := bind_ok (a := f.correct x y u) h
      rw [exec, h1]
      exact ih x' rs h2
    | predict u t =>
      rw [List.cons_append, exec] at h
      obtain ⟨x', h1, h2⟩ := bind_ok (a := predictTo f x u t) h
      rw [exec, h1]
      exact ih x' rs h2

open Classical in
theorem immSchedule_split (is : I → ℝ) (ys : Y → ℝ) (YS : List Y) (first : Bool) (pre : List I) (u u' : I) :
    ∃ b, immSchedule is ys first (pre ++ [u, u']) YS =
      (immSchedule is ys first (pre ++ [u]) YS ++ [Ev.record]) ++ b ∧ ∀ e ∈ b, e ≠ Ev.record := by
  induction pre generalizing first with
  | nil =>
    refine ⟨(YS.filter fun y => decide ((first = true ∨ is u ≤ ys y) ∧ ys y < is u')).map
        (fun y => Ev.correct y u) ++ [Ev.predict u (is u')], ?_, ?_⟩
    · simp [immSchedule]
    · intro e he
      rcases List.mem_append.1 he with he | he
      · obtain ⟨y, _, rfl⟩ := List.mem_map.1 he
        simp
      · simp at he; subst he; simp
  | cons p pre ih =>
    obtain ⟨b, h1, h2⟩ := ih false
    refine ⟨b, ?_, h2⟩
    rcases pre with _ | ⟨p', pre⟩
    · simp only [List.nil_append, List.cons_append] at h1 ⊢
      rw [immSchedule, h1, immSchedule]
      simp
    · simp only [List.cons_append] at h1 ⊢
      rw [immSchedule, h1, immSchedule]
      simp

open Classical in
theorem fused_immSchedule (is : I → ℝ) (ys : Y → ℝ) (first : Bool) (ins : List I) (YS : List Y) :
    fused (immSchedule is ys first ins YS) = fused (schedule is ys first ins YS) := by
  induction ins generalizing first with
  | nil => rfl
  | cons u us ih =>
    cases us with
    | nil => rfl
    | cons u' us =>
      rw [immSchedule, schedule, fused_append, fused_append, fused_append, fused_append, fused_append,
        fused_map, ih false]
      simp [fused]

open Classical in
/-- **C69.** The measurements of the last input interval never influence the result of `run_imm_filter`: with retained
inputs `pre ++ [u, u']`, the output is that of a schedule in which only measurements stamped before `u` are
fused. (`run_filter`, by contrast, records after fusing: C21.) -/
theorem C69_last_interval_ignored (f : FilterApi X I Y) (x0 : X) (t0 : ℝ) (hx : f.xstamp x0 = some t0)
    (ins : List I) (meas : List Y)
    (hi : ins = [] ∨ ∃ u ∈ ins, t0 ≤ f.istamp u) (hm : meas = [] ∨ ∃ y ∈ meas, t0 ≤ f.ystamp y)
    (pre : List I) (u u' : I) (hr : retained f.istamp t0 ins = pre ++ [u, u']) (rs : List X)
    (h : runImm f x0 ins meas = .ok rs) :
    ∃ evs : List (Ev I Y), exec f evs x0 = .ok rs ∧
      fused evs = if pre = [] then [] else
        (retained f.ystamp t0 meas).filter fun y => decide (f.ystamp y < f.istamp u) := by
  rw [C69_run_imm_schedule f x0 t0 hx ins meas hi hm, hr] at h
  obtain ⟨b, h1, h2⟩ := immSchedule_split f.istamp f.ystamp (retained f.ystamp t0 meas) true pre u u'
  rw [h1] at h
  refine ⟨_, exec_drop_tail f _ b x0 rs h2 h, ?_⟩
  have hI : TimeSorted f.istamp (retained f.istamp t0 ins) :=
    (sortByStamp_sorted _ _).filter _ _
  have hY : TimeSorted f.ystamp (retained f.ystamp t0 meas) :=
    (sortByStamp_sorted _ _).filter _ _
  rw [hr] at hI
  rw [fused_append, fused_immSchedule]
  rcases pre with _ | ⟨p, pre⟩
  · simp [schedule, fused]
  · rw [if_neg (by simp)]
    have hI' : TimeSorted f.istamp (p :: pre ++ [u]) := by
      refine List.Pairwise.sublist ?_ hI
      exact List.Sublist.append_left (by simp) _
    rcases pre with _ | ⟨q, pre⟩
    · have := fused_schedule f.istamp f.ystamp _ hY true p u [] hI'
      simp only [List.cons_append, List.nil_append]
      rw [this]
      simp [fused]
    · have := fused_schedule f.istamp f.ystamp _ hY true p q (pre ++ [u]) hI'
      simp only [List.cons_append] at this ⊢
      rw [this]
      simp [fused]

end Verif
