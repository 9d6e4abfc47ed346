import Verif.Model.Datagen
import Verif.Lemmas.RunFilter
import Mathlib.Tactic.Ring
import Mathlib.Tactic.Positivity
import Mathlib.Tactic.FieldSimp
import Mathlib.Algebra.Order.Floor.Ring

/-! Helper lemmas for `Verif.Model.Datagen`. -/

namespace Verif

set_option linter.unusedVariables false
set_option linter.unusedSectionVars false

variable {V U : Type} {n nu : ℕ}

theorem rint_mono : Monotone rint := by
  intro x y hxy
  have hf : ⌊x⌋ ≤ ⌊y⌋ := Int.floor_le_floor hxy
  have hx := Int.fract_add_floor x
  have hy := Int.fract_add_floor y
  have upper : rint x ≤ ⌊x⌋ + 1 := by unfold rint; split_ifs <;> omega
  have lower : ⌊y⌋ ≤ rint y := by unfold rint; split_ifs <;> omega
  rcases hf.lt_or_eq with h | h
  · omega
  · have hfr : Int.fract x ≤ Int.fract y := by
      rw [h] at hx; linarith
    unfold rint
    rw [h]
    split_ifs <;> first | omega | (exfalso; linarith) | skip

theorem rint_intCast (z : ℤ) : rint (z : ℝ) = z := by
  unfold rint
  rw [Int.fract_intCast, if_pos (by norm_num), Int.floor_intCast]

theorem round12_mono : Monotone round12 := by
  intro x y h
  unfold round12
  have := rint_mono (mul_le_mul_of_nonneg_right h (by positivity : (0 : ℝ) ≤ 10 ^ 12))
  have h2 : (rint (x * 10 ^ 12) : ℝ) ≤ rint (y * 10 ^ 12) := by exact_mod_cast this
  exact div_le_div_of_nonneg_right h2 (by positivity)

theorem round12_idem (x : ℝ) : round12 (round12 x) = round12 x := by
  have h : round12 x * 10 ^ 12 = (rint (x * 10 ^ 12) : ℝ) := by
    unfold round12
    field_simp
  rw [round12, h, rint_intCast]
  rfl

theorem round12_of_int (z : ℤ) (x : ℝ) (h : x * 10 ^ 12 = z) : round12 x = x := by
  rw [round12, h, rint_intCast, ← h]
  field_simp

theorem stampGrid_ok {a b f : ℝ} {l : List ℝ} (h : stampGrid a b f = .ok l) :
    f ≠ 0 ∧ l = (List.range ⌈(b - a) * f⌉₊).map fun i : ℕ => round12 (a + i / f) := by
  unfold stampGrid at h
  split_ifs at h with hf
  refine ⟨hf, ?_⟩
  cases h
  unfold arange
  rw [List.map_map, div_div_eq_mul_div, div_one]
  refine List.map_congr_left fun i _ => ?_
  show round12 (a + i * (1 / f)) = _
  rw [mul_one_div]

theorem stampGrid_eq {a b f : ℝ} (h : f ≠ 0) :
    stampGrid a b f = .ok ((List.range ⌈(b - a) * f⌉₊).map fun i : ℕ => round12 (a + i / f)) := by
  cases hs : stampGrid a b f with
  | error e => unfold stampGrid at hs; rw [if_neg h] at hs; cases hs
  | ok l => rw [(stampGrid_ok hs).2]

/-- A flow: moving for `a` and then for `b` is moving for `a + b`. -/
def IsFlow (P : ProcModel V U n) : Prop :=
  ∀ (v : V) (u : Inp U) (s a b : ℝ),
    (P.evaluate ⟨(P.evaluate ⟨v, some s⟩ u a).value, some (s + a)⟩ u b).value = (P.evaluate ⟨v, some s⟩ u (a + b)).value

theorem move_move {g : DataGen V U n nu} (hfl : IsFlow g.proc) (x : V × ℝ) (u : U × ℝ) (a b : ℝ) :
    g.move (g.move x u a) u b = g.move x u b := by
  unfold DataGen.move
  have := hfl x.1 ⟨u.1, some u.2⟩ x.2 (a - x.2) (b - a)
  rw [show x.2 + (a - x.2) = a by ring, show a - x.2 + (b - a) = b - x.2 by ring] at this
  simp only [this]

theorem move_snd (g : DataGen V U n nu) (x : V × ℝ) (u : U × ℝ) (a : ℝ) : (g.move x u a).2 = a := rfl

theorem fill_cons_due {g : DataGen V U n nu} {noise : Option (NoiseSrc nu)} {tn : ℝ} {u : U × ℝ} {y : GenMeas V n}
    {ys : List (GenMeas V n)} {j : ℕ} {x : V × ℝ} (hd : y.stamp < tn)
    {r : (V × ℝ) × List (GenMeas V n) × List (GenMeas V n)} (h : g.fill noise tn u (y :: ys) j x = .ok r) :
    ∃ v r', measureState y.model ⟨(g.move x u y.stamp).1, some y.stamp⟩ (noise.map fun s => s.meas j y.m) = .ok v ∧
      g.fill noise tn u ys (j + 1) (g.move x u y.stamp) = .ok r' ∧
      r = (r'.1, { y with value := some v } :: r'.2.1, r'.2.2) := by
  simp only [DataGen.fill] at h
  rw [if_pos hd] at h
  obtain ⟨v, h1, h⟩ := bind_ok h
  obtain ⟨r', h2, h⟩ := bind_ok h
  cases h
  exact ⟨v, r', h1, h2, rfl⟩

theorem fill_cons_wait {g : DataGen V U n nu} {noise : Option (NoiseSrc nu)} {tn : ℝ} {u : U × ℝ} {y : GenMeas V n}
    {ys : List (GenMeas V n)} {j : ℕ} {x : V × ℝ} (hd : ¬ y.stamp < tn) :
    g.fill noise tn u (y :: ys) j x = .ok (x, [], y :: ys) := by
  simp only [DataGen.fill]
  rw [if_neg hd]

/-- What the inner loop does to the list of measurements. -/
theorem fill_struct {g : DataGen V U n nu} {noise : Option (NoiseSrc nu)} {tn : ℝ} {u : U × ℝ} :
    ∀ {ys : List (GenMeas V n)} {j : ℕ} {x : V × ℝ} {r : (V × ℝ) × List (GenMeas V n) × List (GenMeas V n)},
    g.fill noise tn u ys j x = .ok r →
    r.2.2 = ys.drop r.2.1.length ∧ r.2.1.length ≤ ys.length ∧
    (∀ (i : ℕ) (d : GenMeas V n), r.2.1[i]? = some d → ∃ (y : GenMeas V n) (v : Vec y.m), ys[i]? = some y ∧
      d = { y with value := some v } ∧ y.stamp < tn) ∧
    (TimeSorted GenMeas.stamp ys → ∀ y ∈ r.2.2, tn ≤ y.stamp)
  | [], j, x, r, h => by cases h; simp
  | y :: ys, j, x, r, h => by
    by_cases hd : y.stamp < tn
    · obtain ⟨v, r', h1, h2, rfl⟩ := fill_cons_due hd h
      obtain ⟨a, b, c, d⟩ := fill_struct h2
      refine ⟨by simpa using a, by simpa using b, ?_, ?_⟩
      · intro i e he
        cases i with
        | zero =>
          simp only [List.getElem?_cons_zero, Option.some.injEq] at he
          exact ⟨y, v, by simp, he.symm, hd⟩
        | succ i =>
          simp only [List.getElem?_cons_succ] at he
          obtain ⟨y', v', g1, g2, g3⟩ := c i e he
          exact ⟨y', v', by simpa using g1, g2, g3⟩
      · intro hs
        exact d (List.pairwise_cons.1 hs).2
    · rw [fill_cons_wait hd] at h
      cases h
      refine ⟨by simp, by simp, by simp, ?_⟩
      intro hs z hz
      rw [TimeSorted, List.pairwise_cons] at hs
      rcases List.mem_cons.1 hz with rfl | hz
      · exact not_lt.1 hd
      · exact (not_lt.1 hd).trans (hs.1 z hz)

/-- For a flow the inner loop measures the states on the trajectory from `x`, and leaves a state on it. -/
theorem fill_flow {g : DataGen V U n nu} (hfl : IsFlow g.proc) {noise : Option (NoiseSrc nu)} {tn : ℝ} {u : U × ℝ} :
    ∀ {ys : List (GenMeas V n)} {j : ℕ} {x : V × ℝ} {r : (V × ℝ) × List (GenMeas V n) × List (GenMeas V n)},
    g.fill noise tn u ys j x = .ok r →
    (∀ t, g.move r.1 u t = g.move x u t) ∧
    (∀ (i : ℕ) (d : GenMeas V n), r.2.1[i]? = some d → ∃ (y : GenMeas V n) (v : Vec y.m), ys[i]? = some y ∧
      d = { y with value := some v } ∧ y.stamp < tn ∧
      measureState y.model ⟨(g.move x u y.stamp).1, some y.stamp⟩ (noise.map fun s => s.meas (j + i) y.m) = .ok v)
  | [], j, x, r, h => by cases h; simp
  | y :: ys, j, x, r, h => by
    by_cases hd : y.stamp < tn
    · obtain ⟨v, r', h1, h2, rfl⟩ := fill_cons_due hd h
      obtain ⟨a, c⟩ := fill_flow hfl h2
      refine ⟨?_, ?_⟩
      · intro t
        rw [show ((r'.1, { y with value := some v } :: r'.2.1, r'.2.2) :
          (V × ℝ) × List (GenMeas V n) × List (GenMeas V n)).1 = r'.1 from rfl, a t, move_move hfl]
      · intro i e he
        cases i with
        | zero =>
          simp only [List.getElem?_cons_zero, Option.some.injEq] at he
          exact ⟨y, v, by simp, he.symm, hd, h1⟩
        | succ i =>
          simp only [List.getElem?_cons_succ] at he
          obtain ⟨y', v', g1, g2, g3, g4⟩ := c i e he
          rw [move_move hfl] at g4
          exact ⟨y', v', by simpa using g1, g2, g3, by rw [show j + (i + 1) = j + 1 + i by ring]; exact g4⟩
    · rw [fill_cons_wait hd] at h
      cases h
      exact ⟨fun t => rfl, by simp⟩

/-- The input in force at a state. -/
def DataGen.inputAt (g : DataGen V U n nu) (x : V × ℝ) : U × ℝ := (g.inputFunc x.2 x.1).toInput x.2

theorem loop_cons {g : DataGen V U n nu} {noise : Option (NoiseSrc nu)} {tn t : ℝ} {ts : List ℝ} {k j : ℕ} {v : V}
    {ys : List (GenMeas V n)} {R : List (V × ℝ) × List (U × ℝ) × List (GenMeas V n) × List (GenMeas V n)}
    (h : g.loop noise (tn :: ts) t k (v, t) ys j = .ok R) :
    ∃ r uo R', g.fill noise tn (g.inputAt (v, t)) ys j (v, t) = .ok r ∧
      g.inputOut noise k t (g.inputAt (v, t)) = .ok uo ∧
      g.loop noise ts tn (k + 1) (g.move r.1 (g.inputAt (v, t)) tn) r.2.2 (j + r.2.1.length) = .ok R' ∧
      R = (g.move r.1 (g.inputAt (v, t)) tn :: R'.1, uo :: R'.2.1, r.2.1 ++ R'.2.2.1, R'.2.2.2) := by
  simp only [DataGen.loop] at h
  obtain ⟨r, h1, h⟩ := bind_ok h
  obtain ⟨uo, h2, h⟩ := bind_ok h
  obtain ⟨R', h3, h⟩ := bind_ok h
  cases h
  exact ⟨r, uo, R', h1, h2, h3, rfl⟩

/-- What the main loop does to stamps and to the list of measurements (any process model). -/
theorem loop_struct {g : DataGen V U n nu} {noise : Option (NoiseSrc nu)} :
    ∀ {ts : List ℝ} {t : ℝ} {k j : ℕ} {v : V} {ys : List (GenMeas V n)}
      {R : List (V × ℝ) × List (U × ℝ) × List (GenMeas V n) × List (GenMeas V n)},
    g.loop noise ts t k (v, t) ys j = .ok R →
    R.1.map Prod.snd = ts ∧ R.2.1.length = ts.length ∧
    R.2.2.2 = ys.drop R.2.2.1.length ∧ R.2.2.1.length ≤ ys.length ∧
    (∀ (i : ℕ) (d : GenMeas V n), R.2.2.1[i]? = some d → ∃ (y : GenMeas V n) (w : Vec y.m), ys[i]? = some y ∧
      d = { y with value := some w } ∧ ∃ s ∈ ts, y.stamp < s) ∧
    (TimeSorted GenMeas.stamp ys → ∀ s, ts.getLast? = some s → ∀ y ∈ R.2.2.2, s ≤ y.stamp)
  | [], t, k, j, v, ys, R, h => by cases h; simp
  | tn :: ts, t, k, j, v, ys, R, h => by
    obtain ⟨r, uo, R', h1, h2, h3, rfl⟩ := loop_cons h
    have h3' : g.loop noise ts tn (k + 1) ((g.move r.1 (g.inputAt (v, t)) tn).1, tn) r.2.2 (j + r.2.1.length) = .ok R' := h3
    obtain ⟨a1, a2, a3, a4⟩ := fill_struct h1
    obtain ⟨b1, b2, b3, b4, b5, b6⟩ := loop_struct h3'
    refine ⟨by simp [b1, move_snd], by simp [b2], ?_, ?_, ?_, ?_⟩
    · simp only [List.length_append, b3, a1, List.drop_drop]
    · rw [a1, List.length_drop] at b4
      simp only [List.length_append]
      omega
    · intro i d hd
      simp only at hd
      by_cases hi : i < r.2.1.length
      · rw [List.getElem?_append_left hi] at hd
        obtain ⟨y, w, c1, c2, c3⟩ := a3 i d hd
        exact ⟨y, w, c1, c2, tn, by simp, c3⟩
      · rw [List.getElem?_append_right (not_lt.1 hi)] at hd
        obtain ⟨y, w, c1, c2, s, c3, c4⟩ := b5 _ d hd
        refine ⟨y, w, ?_, c2, s, by simp [c3], c4⟩
        rw [a1, List.getElem?_drop] at c1
        rw [← c1]
        congr 1
        omega
    · intro hs s hl y hy
      simp only at hy
      cases ts with
      | nil =>
        simp only [List.getLast?_singleton, Option.some.injEq] at hl
        rw [← hl]
        rw [b3] at hy
        exact a4 hs y (List.mem_of_mem_drop hy)
      | cons t2 ts =>
        rw [List.getLast?_cons_cons] at hl
        refine b6 ?_ s hl y hy
        rw [a1]
        exact hs.sublist (List.drop_sublist _ _)

/-- The main loop for a flow: states, inputs and measured values. -/
theorem loop_flow {g : DataGen V U n nu} (hfl : IsFlow g.proc) {noise : Option (NoiseSrc nu)} :
    ∀ {ts : List ℝ} {t : ℝ} {k j : ℕ} {v : V} {ys : List (GenMeas V n)}
      {R : List (V × ℝ) × List (U × ℝ) × List (GenMeas V n) × List (GenMeas V n)},
    g.loop noise ts t k (v, t) ys j = .ok R →
    (∀ (i : ℕ) (x : V × ℝ) (t' : ℝ), ((v, t) :: R.1)[i]? = some x → ts[i]? = some t' →
      R.1[i]? = some (g.move x (g.inputAt x) t')) ∧
    (∀ (i : ℕ) (x : V × ℝ) (o : U × ℝ), ((v, t) :: R.1)[i]? = some x → R.2.1[i]? = some o →
      g.inputOut noise (k + i) x.2 (g.inputAt x) = .ok o) ∧
    (TimeSorted GenMeas.stamp ys → ∀ (i : ℕ) (d : GenMeas V n), R.2.2.1[i]? = some d → ∃ (y : GenMeas V n) (w : Vec y.m)
      (q : ℕ) (x x' : V × ℝ), ys[i]? = some y ∧ d = { y with value := some w } ∧ ((v, t) :: R.1)[q]? = some x ∧
      R.1[q]? = some x' ∧ (q = 0 ∨ x.2 ≤ y.stamp) ∧ y.stamp < x'.2 ∧
      measureState y.model ⟨(g.move x (g.inputAt x) y.stamp).1, some y.stamp⟩
        (noise.map fun s => s.meas (j + i) y.m) = .ok w)
  | [], t, k, j, v, ys, R, h => by cases h; simp
  | tn :: ts, t, k, j, v, ys, R, h => by
    obtain ⟨r, uo, R', h1, h2, h3, rfl⟩ := loop_cons h
    have h3' : g.loop noise ts tn (k + 1) ((g.move r.1 (g.inputAt (v, t)) tn).1, tn) r.2.2 (j + r.2.1.length) = .ok R' := h3
    obtain ⟨a1, a2, _, a4⟩ := fill_struct h1
    obtain ⟨f1, f2⟩ := fill_flow hfl h1
    obtain ⟨b1, b2, b3⟩ := loop_flow hfl h3'
    have hx : g.move r.1 (g.inputAt (v, t)) tn = g.move (v, t) (g.inputAt (v, t)) tn := f1 tn
    refine ⟨?_, ?_, ?_⟩
    · intro i x t' hxi ht
      cases i with
      | zero =>
        simp only [List.getElem?_cons_zero, Option.some.injEq] at hxi ht ⊢
        rw [← hxi, ← ht, hx]
      | succ i =>
        simp only [List.getElem?_cons_succ] at hxi ht ⊢
        exact b1 i x t' hxi ht
    · intro i x o hxi ho
      cases i with
      | zero =>
        simp only [List.getElem?_cons_zero, Option.some.injEq] at hxi ho
        rw [← hxi, ← ho]
        exact h2
      | succ i =>
        simp only [List.getElem?_cons_succ] at hxi ho
        rw [show k + (i + 1) = k + 1 + i by ring]
        exact b2 i x o hxi ho
    · intro hs i d hd
      simp only at hd
      by_cases hi : i < r.2.1.length
      · rw [List.getElem?_append_left hi] at hd
        obtain ⟨y, w, c1, c2, c3, c4⟩ := f2 i d hd
        exact ⟨y, w, 0, (v, t), _, c1, c2, by simp, by simp; rfl, Or.inl rfl, c3, c4⟩
      · rw [List.getElem?_append_right (not_lt.1 hi)] at hd
        have hs' : TimeSorted GenMeas.stamp r.2.2 := by rw [a1]; exact hs.sublist (List.drop_sublist _ _)
        obtain ⟨y, w, q, x, x', c1, c2, c3, c4, c5, c6, c7⟩ := b3 hs' _ d hd
        have hy : y ∈ r.2.2 := List.mem_of_getElem? c1
        refine ⟨y, w, q + 1, x, x', ?_, c2, by rw [List.getElem?_cons_succ]; exact c3, by simpa using c4, Or.inr ?_, c6, ?_⟩
        · rw [a1, List.getElem?_drop] at c1
          rw [← c1]
          congr 1
          omega
        · rcases c5 with rfl | c5
          · simp only [List.getElem?_cons_zero, Option.some.injEq] at c3
            rw [← c3]
            exact a4 hs y hy
          · exact c5
        · rw [show j + i = j + r.2.1.length + (i - r.2.1.length) by omega]
          exact c7

end Verif
