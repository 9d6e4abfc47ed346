import Verif.Model.Datasets
import Verif.Props.RoundTrip

/-!
C100: the simulated datasets. C101: TUM trajectories.
-/

set_option linter.unusedSectionVars false
set_option linter.unusedVariables false

namespace Verif

open Matrix

variable {V U : Type} {n nu : ℕ}

/-! ### Landmarks -/

theorem linspace_length (a b : ℝ) (n : ℕ) : (linspace a b n).length = n := by
  unfold linspace
  split
  · rename_i h; rw [h]; rfl
  · simp

theorem linspace_get (a b : ℝ) {n i : ℕ} (hi : i < n) :
    (linspace a b n)[i]? = some (if n = 1 then a else a + i * ((b - a) / ((n : ℝ) - 1))) := by
  unfold linspace
  split
  · rename_i h
    have : i = 0 := by omega
    rw [this]; rfl
  · rw [List.getElem?_map, List.getElem?_range hi]; rfl

/-- The angles of a level. -/
theorem angles_get (N : ℕ) {k : ℕ} (hk : k < N) :
    ((linspace 0 (2 * Real.pi) (N + 1)).dropLast)[k]? = some (2 * Real.pi * k / N) := by
  rw [List.getElem?_dropLast, linspace_length, if_pos (by omega), linspace_get _ _ (by omega), if_neg (by omega)]
  congr 1
  have : (N : ℝ) ≠ 0 := by exact_mod_cast (by omega : N ≠ 0)
  push_cast
  rw [add_sub_cancel_right]
  field_simp
  ring

theorem angles_length (N : ℕ) : ((linspace 0 (2 * Real.pi) (N + 1)).dropLast).length = N := by
  simp [linspace_length]

theorem flatMap_get {α β : Type} (f : α → List β) (N : ℕ) :
    ∀ (l : List α), (∀ a ∈ l, (f a).length = N) → ∀ (i k : ℕ) (a : α), l[i]? = some a → k < N →
      (l.flatMap f)[i * N + k]? = (f a)[k]?
  | [], _, i, k, a, h, _ => by simp at h
  | b :: l, hN, 0, k, a, h, hk => by
    simp only [List.getElem?_cons_zero, Option.some.injEq] at h
    subst h
    rw [List.flatMap_cons, Nat.zero_mul, Nat.zero_add, List.getElem?_append_left (by rw [hN b (by simp)]; exact hk)]
  | b :: l, hN, i + 1, k, a, h, hk => by
    simp only [List.getElem?_cons_succ] at h
    have hb := hN b (by simp)
    rw [List.flatMap_cons, List.getElem?_append_right (by rw [hb]; nlinarith), hb,
      show (i + 1) * N + k - N = i * N + k by rw [Nat.succ_mul]; omega]
    exact flatMap_get f N l (fun a ha => hN a (by simp [ha])) i k a h hk

/-- Specification: the height of level `l` of `levels` levels up to `height`. -/
noncomputable def levelHeight (height : ℝ) (levels l : ℕ) : ℝ := if levels = 1 then 0 else height * l / (levels - 1)

/-- **C100, landmarks: where they are.** There are `n_levels · n_landmarks_per_level` of them, level by level from the ground up; the `k`-th
of level `l` stands at the angle `2πk/n_landmarks_per_level` on the circle of the given radius at the height of the level. -/
theorem C100_landmarks (radius height : ℝ) (levels perLevel : ℕ) :
    (landmarkPositions radius height levels perLevel).length = levels * perLevel ∧
    ∀ l k, l < levels → k < perLevel → (landmarkPositions radius height levels perLevel)[l * perLevel + k]? =
      some ![radius * Real.cos (2 * Real.pi * k / perLevel), radius * Real.sin (2 * Real.pi * k / perLevel),
        levelHeight height levels l] := by
  have hlen : ∀ z ∈ linspace 0 height levels, (((linspace 0 (2 * Real.pi) (perLevel + 1)).dropLast).map fun a =>
      (![radius * Real.cos a, radius * Real.sin a, z] : Vec 3)).length = perLevel := by
    intro z _
    rw [List.length_map, angles_length]
  refine ⟨?_, fun l k hl hk => ?_⟩
  · unfold landmarkPositions
    rw [List.length_flatMap, List.map_congr_left hlen, List.map_const', List.sum_replicate, linspace_length, smul_eq_mul]
  · unfold landmarkPositions
    rw [flatMap_get _ perLevel _ hlen l k _ (linspace_get 0 height hl) hk, List.getElem?_map, angles_get _ hk]
    simp only [Option.map_some, Option.some.injEq]
    unfold levelHeight
    split
    · rfl
    · rw [sub_zero, zero_add, mul_div_assoc', mul_comm (l : ℝ) height]

/-- Every index of the list is of the form above. -/
theorem landmarks_mem {radius height : ℝ} {levels perLevel : ℕ} {p : Vec 3} (h : p ∈ landmarkPositions radius height levels perLevel) :
    ∃ l k, l < levels ∧ k < perLevel ∧ p = ![radius * Real.cos (2 * Real.pi * k / perLevel), radius * Real.sin (2 * Real.pi * k / perLevel),
        levelHeight height levels l] := by
  obtain ⟨h1, h2⟩ := C100_landmarks radius height levels perLevel
  obtain ⟨i, hi, rfl⟩ := List.mem_iff_getElem.mp h
  rw [h1] at hi
  have hN : 0 < perLevel := by
    rcases Nat.eq_zero_or_pos perLevel with h | h
    · rw [h, Nat.mul_zero] at hi; omega
    · exact h
  have hl : i / perLevel < levels := Nat.div_lt_of_lt_mul (by rw [Nat.mul_comm]; exact hi)
  have hk : i % perLevel < perLevel := Nat.mod_lt _ hN
  refine ⟨i / perLevel, i % perLevel, hl, hk, ?_⟩
  have := h2 _ _ hl hk
  rw [show i / perLevel * perLevel + i % perLevel = i by rw [Nat.mul_comm]; exact Nat.div_add_mod _ _,
    List.getElem?_eq_getElem (by rw [h1]; exact hi)] at this
  exact Option.some.inj this

/-- **C100, landmarks: the cylinder.** All landmarks lie on the cylinder of the given radius between the ground and the given height; with
at least two levels the lowest is on the ground and the highest at the top. -/
theorem C100_landmarks_cylinder (radius height : ℝ) (levels perLevel : ℕ) (hh : 0 ≤ height) :
    (∀ p ∈ landmarkPositions radius height levels perLevel, p 0 ^ 2 + p 1 ^ 2 = radius ^ 2 ∧ 0 ≤ p 2 ∧ p 2 ≤ height) ∧
    (0 < perLevel → 2 ≤ levels → (∃ p ∈ landmarkPositions radius height levels perLevel, p 2 = 0) ∧
      ∃ p ∈ landmarkPositions radius height levels perLevel, p 2 = height) := by
  refine ⟨fun p hp => ?_, fun hN hL => ?_⟩
  · obtain ⟨l, k, hl, hk, rfl⟩ := landmarks_mem hp
    refine ⟨?_, ?_⟩
    · simp only [Matrix.cons_val_zero, Matrix.cons_val_one]
      nlinarith [Real.sin_sq_add_cos_sq (2 * Real.pi * k / perLevel)]
    · show 0 ≤ levelHeight height levels l ∧ levelHeight height levels l ≤ height
      unfold levelHeight
      split
      · exact ⟨le_refl _, hh⟩
      · have h1 : (1 : ℝ) < levels := by exact_mod_cast (by omega : 1 < levels)
        have h2 : (l : ℝ) + 1 ≤ levels := by exact_mod_cast hl
        refine ⟨div_nonneg (by positivity) (by linarith), ?_⟩
        rw [div_le_iff₀ (by linarith)]
        exact mul_le_mul_of_nonneg_left (by linarith) hh
  · have key := fun l hl => List.mem_of_getElem? ((C100_landmarks radius height levels perLevel).2 l 0 hl hN)
    refine ⟨⟨_, key 0 (by omega), ?_⟩, ⟨_, key (levels - 1) (by omega), ?_⟩⟩
    · show levelHeight height levels 0 = 0
      unfold levelHeight
      rw [if_neg (by omega)]
      simp
    · show levelHeight height levels (levels - 1) = height
      unfold levelHeight
      rw [if_neg (by omega)]
      have h1 : (1 : ℝ) < levels := by exact_mod_cast (by omega : 1 < levels)
      rw [Nat.cast_sub (by omega)]
      push_cast
      rw [mul_div_assoc, div_self (by linarith), mul_one]

/-- **C100, landmarks: a single level.** With one level the height given is not reached: all landmarks are on the ground. -/
theorem C100_landmarks_one_level (radius height : ℝ) (perLevel : ℕ) :
    ∀ p ∈ landmarkPositions radius height 1 perLevel, p 2 = 0 := by
  intro p hp
  obtain ⟨l, k, hl, hk, rfl⟩ := landmarks_mem hp
  show levelHeight height 1 l = 0
  unfold levelHeight
  rw [if_pos rfl]

theorem angle_inj {N k j : ℕ} (hk : k < N) (hj : j < N) (hc : Real.cos (2 * Real.pi * k / N) = Real.cos (2 * Real.pi * j / N))
    (hs : Real.sin (2 * Real.pi * k / N) = Real.sin (2 * Real.pi * j / N)) : k = j := by
  have hN : (0 : ℝ) < N := by exact_mod_cast (by omega : 0 < N)
  have h1 : Real.cos (2 * Real.pi * k / N - 2 * Real.pi * j / N) = 1 := by
    rw [Real.cos_sub, hc, hs]
    nlinarith [Real.sin_sq_add_cos_sq (2 * Real.pi * j / N)]
  obtain ⟨z, hz⟩ := (Real.cos_eq_one_iff _).mp h1
  have hpi := Real.pi_pos
  have h2 : (z : ℝ) * N = (k : ℝ) - j := by
    field_simp at hz
    exact hz
  have h3 : z * N = (k : ℤ) - j := by exact_mod_cast h2
  have h4 : z = 0 := by
    rcases lt_trichotomy z 0 with h | h | h
    · have : z * N ≤ -1 * N := mul_le_mul_of_nonneg_right (by omega) (by omega)
      omega
    · exact h
    · have : 1 * (N : ℤ) ≤ z * N := mul_le_mul_of_nonneg_right (by omega) (by omega)
      omega
  rw [h4] at h3
  omega

/-- **C100, landmarks are distinct** when the radius is not zero and the levels have different heights. -/
theorem C100_landmarks_distinct (radius height : ℝ) (levels perLevel : ℕ) (hr : radius ≠ 0) (hh : height ≠ 0 ∨ levels ≤ 1) :
    (landmarkPositions radius height levels perLevel).Nodup := by
  obtain ⟨h1, h2⟩ := C100_landmarks radius height levels perLevel
  rw [List.nodup_iff_injective_get]
  rintro ⟨i, hi⟩ ⟨j, hj⟩ hij
  rw [h1] at hi hj
  have hN : 0 < perLevel := by
    rcases Nat.eq_zero_or_pos perLevel with h | h
    · rw [h, Nat.mul_zero] at hi; omega
    · exact h
  have e : ∀ i, i < levels * perLevel → (landmarkPositions radius height levels perLevel)[i]? =
      some ![radius * Real.cos (2 * Real.pi * (i % perLevel : ℕ) / perLevel), radius * Real.sin (2 * Real.pi * (i % perLevel : ℕ) / perLevel),
        levelHeight height levels (i / perLevel)] := by
    intro i hi
    have := h2 (i / perLevel) (i % perLevel) (Nat.div_lt_of_lt_mul (by rw [Nat.mul_comm]; exact hi)) (Nat.mod_lt _ hN)
    rwa [show i / perLevel * perLevel + i % perLevel = i by rw [Nat.mul_comm]; exact Nat.div_add_mod _ _] at this
  have e1 := e i hi
  have e2 := e j hj
  rw [List.getElem?_eq_getElem (by rw [h1]; exact hi)] at e1
  rw [List.getElem?_eq_getElem (by rw [h1]; exact hj)] at e2
  simp only [List.get_eq_getElem] at hij
  rw [hij] at e1
  rw [e1] at e2
  have e3 := Option.some.inj e2
  have c0 := congrFun e3 0
  have c1 := congrFun e3 1
  have c2 := congrFun e3 2
  simp only [Matrix.cons_val_zero, Matrix.cons_val_one, Matrix.cons_val] at c0 c1 c2
  have hk := angle_inj (Nat.mod_lt _ hN) (Nat.mod_lt _ hN) (mul_left_cancel₀ hr c0) (mul_left_cancel₀ hr c1)
  have hl : i / perLevel = j / perLevel := by
    have l1 : i / perLevel < levels := Nat.div_lt_of_lt_mul (by rw [Nat.mul_comm]; exact hi)
    have l2 : j / perLevel < levels := Nat.div_lt_of_lt_mul (by rw [Nat.mul_comm]; exact hj)
    generalize i / perLevel = a at c2 l1
    generalize j / perLevel = b at c2 l2
    rcases hh with hh | hh
    · unfold levelHeight at c2
      split at c2
      · omega
      · have h3 : (1 : ℝ) < levels := by exact_mod_cast (by omega : 1 < levels)
        rw [div_left_inj' (by linarith)] at c2
        exact_mod_cast mul_left_cancel₀ hh c2
    · omega
  have : i = j := by
    rw [← Nat.div_add_mod i perLevel, ← Nat.div_add_mod j perLevel, hk, hl]
  simp [this]

/-! ### Times on a grid -/

/-- A multiple of `10⁻¹⁰` seconds. -/
def Tick (x : ℝ) : Prop := ∃ z : ℤ, x * 10 ^ 10 = z

theorem Tick.add {x y : ℝ} : Tick x → Tick y → Tick (x + y) := by
  rintro ⟨a, ha⟩ ⟨b, hb⟩
  exact ⟨a + b, by push_cast; rw [← ha, ← hb]; ring⟩

theorem Tick.nat {x : ℝ} (i : ℕ) : Tick x → Tick (i * x) := by
  rintro ⟨a, ha⟩
  exact ⟨i * a, by push_cast; rw [← ha]; ring⟩

theorem Tick.round {x : ℝ} : Tick x → round12 x = x := by
  rintro ⟨a, ha⟩
  exact round12_of_int (a * 100) x (by push_cast; rw [← ha]; ring)

theorem Tick.distinguishable {x y : ℝ} : Tick x → Tick y → Distinguishable x y := by
  rintro ⟨a, ha⟩ ⟨b, hb⟩
  rcases eq_or_ne a b with h | h
  · left
    rw [h, ← hb] at ha
    exact mul_right_cancel₀ (by positivity) ha
  · right
    have h1 : (1 : ℤ) ≤ |a - b| := Int.one_le_abs (sub_ne_zero.mpr h)
    have h2 : (1 : ℝ) ≤ |(a : ℝ) - b| := by exact_mod_cast h1
    rw [← ha, ← hb, ← sub_mul, abs_mul, abs_of_pos (by positivity : (0 : ℝ) < 10 ^ 10)] at h2
    have : 1 / 10 ^ 10 ≤ |x - y| := by rw [div_le_iff₀ (by positivity)]; exact h2
    refine lt_of_lt_of_le ?_ this
    norm_num

theorem tick_grid {start stop f : ℝ} (hs : Tick start) (hf : Tick (1 / f)) :
    gridSpec start stop f = (List.range ⌈(stop - start) * f⌉₊).map fun i : ℕ => start + i / f := by
  unfold gridSpec
  refine List.map_congr_left fun i _ => Tick.round (hs.add ?_)
  rw [div_eq_mul_one_div]
  exact hf.nat i

/-- The settings of a simulation: all frequencies positive, no negative offset, and the start, the periods and the offsets are multiples
of `10⁻¹⁰` s. -/
structure OnTicks (g : DataGen V U n nu) (start : ℝ) : Prop where
  freq : 0 < g.inputFreq
  period : Tick (1 / g.inputFreq)
  start : Tick start
  info : ∀ r ∈ g.info, 0 < r.freq ∧ 0 ≤ r.offset ∧ Tick (1 / r.freq) ∧ Tick r.offset

theorem ticks_states {g : DataGen V U n nu} {start : ℝ} (ht : OnTicks g start) {x0 : V} {stop : ℝ} {noise : Option (NoiseSrc nu)}
    {D : GenData V U n} (h : g.generate x0 start stop noise = .ok D) :
    D.states.map Prod.snd = (List.range ⌈(stop - start) * g.inputFreq⌉₊).map fun i : ℕ => start + i / g.inputFreq := by
  rw [(C56_stamps ht.freq h).1, tick_grid ht.start ht.period]

theorem ticks_head {g : DataGen V U n nu} {start : ℝ} (ht : OnTicks g start) {x0 : V} {stop : ℝ} {noise : Option (NoiseSrc nu)}
    {D : GenData V U n} (h : g.generate x0 start stop noise = .ok D) : (D.states.map Prod.snd).head? = some start := by
  obtain ⟨a1, ⟨t0, a2⟩, _⟩ := C56_stamps ht.freq h
  have h1 : (D.states.map Prod.snd)[0]? = some t0 := by rw [List.getElem?_map, a2]; rfl
  rw [ticks_states ht h] at h1 ⊢
  cases hN : ⌈(stop - start) * g.inputFreq⌉₊ with
  | zero => rw [hN] at h1; simp at h1
  | succ k => simp [List.range_succ_eq_map]

theorem ticks_increasing {g : DataGen V U n nu} {start : ℝ} (ht : OnTicks g start) {x0 : V} {stop : ℝ} {noise : Option (NoiseSrc nu)}
    {D : GenData V U n} (h : g.generate x0 start stop noise = .ok D) : (D.states.map Prod.snd).Pairwise (· < ·) := by
  rw [ticks_states ht h, List.pairwise_map]
  refine List.pairwise_lt_range.imp fun {i j} hij => ?_
  have : (i : ℝ) / g.inputFreq < j / g.inputFreq := div_lt_div_of_pos_right (by exact_mod_cast hij) ht.freq
  linarith

theorem ticks_meas {g : DataGen V U n nu} {start : ℝ} (ht : OnTicks g start) {x0 : V} {stop : ℝ} {noise : Option (NoiseSrc nu)}
    {D : GenData V U n} (h : g.generate x0 start stop noise = .ok D) {d : GenMeas V n} (hd : d ∈ D.meas) :
    ∃ r ∈ g.info, (∃ i : ℕ, d.stamp = start + r.offset + i / r.freq) ∧ d.tag.1 = r.m ∧ HEq d.model r.model := by
  obtain ⟨t0, tN, e1, e2, e3, _⟩ := C57_complete ht.freq h
  rw [ticks_head ht h] at e1
  cases e1
  have hm : d.tag ∈ D.meas.map GenMeas.tag := List.mem_map_of_mem hd
  rw [e3.mem_iff] at hm
  unfold requestSpec at hm
  obtain ⟨r, hr, hm⟩ := List.mem_flatMap.1 hm
  obtain ⟨_, _, q3, q4⟩ := ht.info r hr
  rw [tick_grid (ht.start.add q4) q3, List.map_map] at hm
  obtain ⟨i, _, hi⟩ := List.mem_map.1 hm
  have hi' : (⟨r.m, r.model, start + r.offset + i / r.freq⟩ : (m : ℕ) × MeasModel V n m × ℝ) = ⟨d.m, d.model, d.stamp⟩ := hi
  injection hi' with b1 b2
  refine ⟨r, hr, ⟨i, ?_⟩, b1.symm, ?_⟩
  · have := congrArg (fun p : (m : ℕ) × MeasModel V n m × ℝ => p.2.2) hi
    exact this.symm
  · have hh : ∀ (m m' : ℕ) (p : MeasModel V n m × ℝ) (q : MeasModel V n m' × ℝ), m = m' → HEq p q → HEq q.1 p.1 := by
      rintro m _ p q rfl hp
      cases hp
      rfl
    exact hh _ _ _ _ b1 b2

theorem ticks_distinguishable {g : DataGen V U n nu} {start : ℝ} (ht : OnTicks g start) {x0 : V} {stop : ℝ} {noise : Option (NoiseSrc nu)}
    {D : GenData V U n} (h : g.generate x0 start stop noise = .ok D) :
    ∀ d ∈ D.meas, ∀ s ∈ D.states.map Prod.snd ++ D.meas.map GenMeas.stamp, Distinguishable d.stamp s := by
  have hm : ∀ d ∈ D.meas, Tick d.stamp := by
    intro d hd
    obtain ⟨r, hr, ⟨i, hi⟩, _⟩ := ticks_meas ht h hd
    obtain ⟨_, _, q3, q4⟩ := ht.info r hr
    rw [hi]
    refine (ht.start.add q4).add ?_
    rw [div_eq_mul_one_div]
    exact q3.nat i
  intro d hd s hs
  refine (hm d hd).distinguishable ?_
  rcases List.mem_append.mp hs with hs | hs
  · rw [ticks_states ht h] at hs
    obtain ⟨i, _, rfl⟩ := List.mem_map.mp hs
    refine ht.start.add ?_
    rw [div_eq_mul_one_div]
    exact ht.period.nat i
  · obtain ⟨d', hd', rfl⟩ := List.mem_map.mp hs
    exact hm d' hd'

/-- If the input frequency is a multiple of every measurement frequency and there are no offsets, every measurement is taken at a sample. -/
theorem ticks_at_samples {g : DataGen V U n nu} {start : ℝ} (ht : OnTicks g start)
    (hmul : ∀ r ∈ g.info, r.offset = 0 ∧ ∃ q : ℕ, g.inputFreq = q * r.freq) {x0 : V} {stop : ℝ} {noise : Option (NoiseSrc nu)}
    {D : GenData V U n} (h : g.generate x0 start stop noise = .ok D) {d : GenMeas V n} (hd : d ∈ D.meas) {k : ℕ} {x x' : V × ℝ}
    (hx : D.states[k]? = some x) (hx' : D.states[k + 1]? = some x') : ¬ (x.2 < d.stamp ∧ d.stamp < x'.2) := by
  obtain ⟨r, hr, ⟨i, hi⟩, _⟩ := ticks_meas ht h hd
  obtain ⟨ho, q, hq⟩ := hmul r hr
  have hf := ht.freq
  have hrf := (ht.info r hr).1
  have e : d.stamp = start + (q * i : ℕ) / g.inputFreq := by
    rw [hi, ho, add_zero, hq]
    have hq0 : (q : ℝ) ≠ 0 := by rintro h; rw [h, zero_mul] at hq; linarith
    push_cast
    field_simp
  have hk : ∀ (k : ℕ) (x : V × ℝ), D.states[k]? = some x → x.2 = start + k / g.inputFreq := by
    intro k x hx
    have h1 : (D.states.map Prod.snd)[k]? = some x.2 := by rw [List.getElem?_map, hx]; rfl
    rw [ticks_states ht h, List.getElem?_map] at h1
    obtain ⟨a, ha, hb⟩ := Option.map_eq_some_iff.mp h1
    rw [List.getElem?_range (by by_contra hc; rw [List.getElem?_eq_none (by simpa using hc)] at ha; cases ha)] at ha
    cases ha
    exact hb.symm
  rw [e, hk k x hx, hk (k + 1) x' hx']
  rintro ⟨h1, h2⟩
  have h1' : (k : ℝ) / g.inputFreq < (q * i : ℕ) / g.inputFreq := by linarith
  have h2' : ((q * i : ℕ) : ℝ) / g.inputFreq < (k + 1 : ℕ) / g.inputFreq := by linarith
  rw [div_lt_div_iff_of_pos_right hf, Nat.cast_lt] at h1' h2'
  omega

/-- Data without noise can always be generated from models that always give a value. -/
theorem datagen_total (g : DataGen V U n nu) (hf : 0 < g.inputFreq) (hr : ∀ r ∈ g.info, r.freq ≠ 0 ∧ ∀ x, r.model.evaluate x ≠ none)
    (x0 : V) {start stop : ℝ} (hs : start < stop) : ∃ D, g.generate x0 start stop none = .ok D := by
  have hfill : ∀ (tnext : ℝ) (u : U × ℝ) (ys : List (GenMeas V n)) (j : ℕ) (x : V × ℝ), (∀ y ∈ ys, ∀ s, y.model.evaluate s ≠ none) →
      ∃ R, g.fill none tnext u ys j x = .ok R ∧ ∀ y ∈ R.2.2, ∀ s, y.model.evaluate s ≠ none := by
    intro tnext u ys
    induction ys with
    | nil => intro j x _; exact ⟨_, rfl, by simp⟩
    | cons y ys ih =>
      intro j x hy
      by_cases hd : tnext > y.stamp
      · obtain ⟨v, hv⟩ := Option.ne_none_iff_exists'.mp (hy y (by simp) ⟨(g.move x u y.stamp).1, some (g.move x u y.stamp).2⟩)
        obtain ⟨R, hR, hR'⟩ := ih (j + 1) (g.move x u y.stamp) fun y' hy' => hy y' (List.mem_cons_of_mem _ hy')
        refine ⟨(R.1, { y with value := some v } :: R.2.1, R.2.2), ?_, hR'⟩
        have hm : measureState y.model ⟨(g.move x u y.stamp).1, some (g.move x u y.stamp).2⟩
            ((none : Option (NoiseSrc nu)).map fun s => s.meas j y.m) = .ok v := by
          unfold measureState
          rw [hv]
          rfl
        unfold DataGen.fill
        rw [if_pos hd]
        show (measureState _ _ _ >>= _) = _
        rw [hm, ok_bindE]
        show (g.fill none tnext u ys (j + 1) (g.move x u y.stamp) >>= _) = _
        rw [hR, ok_bindE]
        rfl
      · refine ⟨(x, [], y :: ys), ?_, hy⟩
        unfold DataGen.fill
        rw [if_neg hd]
  have hloop : ∀ (ts : List ℝ) (t : ℝ) (k : ℕ) (x : V × ℝ) (ys : List (GenMeas V n)) (j : ℕ), (∀ y ∈ ys, ∀ s, y.model.evaluate s ≠ none) →
      ∃ R, g.loop none ts t k x ys j = .ok R := by
    intro ts
    induction ts with
    | nil => intro t k x ys j _; exact ⟨_, rfl⟩
    | cons tnext ts ih =>
      intro t k x ys j hy
      obtain ⟨R, hR, hR'⟩ := hfill tnext ((g.inputFunc t x.1).toInput t) ys j x hy
      obtain ⟨R2, hR2⟩ := ih tnext (k + 1) (g.move R.1 ((g.inputFunc t x.1).toInput t) tnext) R.2.2 (j + R.2.1.length) hR'
      refine ⟨(g.move R.1 ((g.inputFunc t x.1).toInput t) tnext :: R2.1, (g.inputFunc t x.1).toInput t :: R2.2.1, R.2.1 ++ R2.2.2.1, R2.2.2.2), ?_⟩
      unfold DataGen.loop
      show (g.fill none tnext ((g.inputFunc t x.1).toInput t) ys j x >>= _) = _
      rw [hR, ok_bindE]
      show (g.inputOut none k t ((g.inputFunc t x.1).toInput t) >>= _) = _
      rw [show g.inputOut none k t ((g.inputFunc t x.1).toInput t) = .ok ((g.inputFunc t x.1).toInput t) from rfl, ok_bindE, hR2, ok_bindE]
      rfl
  have hgrid : ∃ t0 ts, gridSpec start stop g.inputFreq = t0 :: ts := by
    apply List.exists_cons_of_ne_nil
    unfold gridSpec
    intro hn
    have hlen := congrArg List.length hn
    simp only [List.length_map, List.length_range, List.length_nil, Nat.ceil_eq_zero] at hlen
    have : 0 < (stop - start) * g.inputFreq := mul_pos (by linarith) hf
    linarith
  obtain ⟨t0, ts, hg⟩ := hgrid
  rcases (C57_errors g x0 start stop).2.2 hf.ne' (by rw [hg]; simp) (fun r h => (hr r h).1) with h | h
  · exact h
  · exfalso
    unfold DataGen.generate at h
    rw [stampGrid_eq hf.ne', ok_bindE] at h
    unfold gridSpec at hg
    rw [hg] at h
    simp only at h
    cases hreq : g.requested t0 (ts.getLast?.getD t0) with
    | error e =>
      obtain ⟨l, hl⟩ : ∃ l, g.requested t0 (ts.getLast?.getD t0) = .ok l := by
        unfold DataGen.requested
        have : ∃ l, g.info.mapM (reqMeas t0 (ts.getLast?.getD t0)) = .ok l := by
          generalize g.info = info at hr
          induction info with
          | nil => exact ⟨[], rfl⟩
          | cons r info ih =>
            obtain ⟨l, hl⟩ := ih (fun q hq => hr q (List.mem_cons_of_mem _ hq))
            rw [List.mapM_cons]
            unfold reqMeas at hl ⊢
            rw [stampGrid_eq (hr r List.mem_cons_self).1, ok_bindE]
            simp only [pure_bind]
            rw [hl]
            exact ⟨_, rfl⟩
        obtain ⟨l, hl⟩ := this
        rw [hl]
        exact ⟨_, rfl⟩
      rw [hreq] at hl
      cases hl
    | ok ys =>
      have hys : ∀ y ∈ ys, ∀ s, y.model.evaluate s ≠ none := by
        intro y hy s
        have hm : y.tag ∈ ys.map GenMeas.tag := List.mem_map_of_mem hy
        rw [(requested_ok hreq).2.1.mem_iff] at hm
        unfold requestSpec at hm
        obtain ⟨r, hr', hm⟩ := List.mem_flatMap.1 hm
        obtain ⟨i, _, hi⟩ := List.mem_map.1 hm
        obtain ⟨m, model, stamp, value⟩ := y
        simp only [GenMeas.tag] at hi
        injection hi with b1 b2
        subst b1
        simp only [heq_eq_eq, Prod.mk.injEq] at b2
        rw [← b2.1]
        exact (hr r hr').2 s
      rw [hreq, ok_bindE] at h
      obtain ⟨R, hR⟩ := hloop ts t0 0 (x0, t0) ys 0 hys
      rw [hR] at h
      cases h

/-- A simulation without noise, filtered with its own process model, on the grid: exactly the ground truth. -/
theorem ticks_ekf {g : DataGen V U n nu} {start stop : ℝ} (ht : OnTicks g start) (hss : start < stop)
    (hmul : ∀ r ∈ g.info, r.offset = 0 ∧ ∃ q : ℕ, g.inputFreq = q * r.freq)
    (hval : ∀ r ∈ g.info, ∀ x, r.model.evaluate x ≠ none) (hR : ∀ r ∈ g.info, ∀ x, (r.model.covariance x).PosDef)
    (hz : ∀ v u s, (g.proc.evaluate ⟨v, some s⟩ u 0).value = v) (hst : ∀ t v, ((g.inputFunc t v).toInput t).2 = t)
    (e : EkfEnv V U n) (he : e.proc = g.proc) (h0 : ∀ v, e.plus v 0 = v)
    (hQ : ∀ x u dt, 0 ≤ dt → (e.proc.covariance x u dt).PosSemidef) (x0 : V) (P0 : Mat n n) (hP : P0.PosSemidef) :
    ∃ D rs, g.generate x0 start stop none = .ok D ∧ runFilter (ekfApi e) ⟨⟨x0, some start⟩, P0⟩ D.inputLog D.measLog = .ok rs ∧
      rs.map SWC.state = D.states.dropLast.dropLast.map (fun x => (⟨x.1, some x.2⟩ : St V)) ∧ ∀ r ∈ rs, r.cov.PosSemidef := by
  obtain ⟨D, hD⟩ := datagen_total g ht.freq (fun r hr => ⟨(ht.info r hr).1.ne', hval r hr⟩) x0 hss
  have hmR : ∀ d ∈ D.meas, ∀ s, (d.model.covariance s).PosDef := by
    intro d hd s
    obtain ⟨r, hr, _, hm, hmod⟩ := ticks_meas ht hD hd
    obtain ⟨m, model, stamp, value⟩ := d
    simp only [GenMeas.tag] at hm
    subst hm
    cases hmod
    exact hR r hr s
  obtain ⟨rs, h1, h2, h3⟩ := C99_ekf ht.freq (fun r hr => ⟨(ht.info r hr).1, (ht.info r hr).2.1⟩) hz hst hD (ticks_increasing ht hD)
    (ticks_distinguishable ht hD) (ticks_head ht hD) e he h0 hQ hmR P0 hP
  have hlen := (C56_stamps ht.freq hD).2.2
  have key : ∀ (k : ℕ) (r : SWC V n), rs[k]? = some r → ∃ x : V × ℝ, D.states[k]? = some x ∧ r.state = ⟨x.1, some x.2⟩ ∧ r.cov.PosSemidef := by
    intro k r hk
    have hk' : k < rs.length := (List.getElem?_eq_some_iff.mp hk).1
    rw [h2] at hk'
    obtain ⟨u, hu⟩ : ∃ u, D.inputs[k]? = some u := ⟨_, List.getElem?_eq_getElem (by omega)⟩
    obtain ⟨x, hx⟩ : ∃ x, D.states[k]? = some x := ⟨_, List.getElem?_eq_getElem (by omega)⟩
    obtain ⟨x', hx'⟩ : ∃ x', D.states[k + 1]? = some x' := ⟨_, List.getElem?_eq_getElem (by omega)⟩
    obtain ⟨a1, _, a3⟩ := h3 k r u x x' hk hu hx hx'
    exact ⟨x, hx, a3 fun d hd => ticks_at_samples ht hmul hD hd hx hx', a1⟩
  refine ⟨D, rs, hD, h1, ?_, fun r hr => ?_⟩
  · apply List.ext_getElem?
    intro k
    rw [List.getElem?_map, List.getElem?_map, List.getElem?_dropLast, List.getElem?_dropLast, List.length_dropLast]
    cases hk : rs[k]? with
    | none =>
      have := List.getElem?_eq_none_iff.mp hk
      rw [if_neg (by omega)]
      rfl
    | some r =>
      have hk' : k < rs.length := (List.getElem?_eq_some_iff.mp hk).1
      obtain ⟨x, hx, hr, _⟩ := key k r hk
      rw [if_pos (by omega), if_pos (by omega), hx]
      simp only [Option.map_some, hr]
  · obtain ⟨k, hk, rfl⟩ := List.mem_iff_getElem.mp hr
    obtain ⟨x, _, _, h⟩ := key k _ (List.getElem?_eq_getElem hk)
    exact h

/-! ### The ranging dataset -/

theorem numbered_psd {κ : Type} [Fintype κ] [DecidableEq κ] {m : ℕ} (eqv : κ ≃ Fin m) {A : Matrix κ κ ℝ} (h : A.PosSemidef) :
    (numbered eqv A).PosSemidef := h.submatrix eqv.symm

theorem scalar_posDef {R : ℝ} (h : 0 < R) : (Matrix.of fun _ _ => R : Mat 1 1).PosDef := by
  have e : (Matrix.of fun _ _ => R : Mat 1 1) = Matrix.diagonal fun _ => R := by
    ext i j
    rw [Subsingleton.elim i j]
    simp
  rw [e]
  exact Matrix.PosDef.diagonal fun _ => h

/-- **C100, ranging.** `SimulatedPoseRangingDataset` with `noise_active=False`, with any initial pose, covariances, start and end, and an
input frequency that is a multiple of the measurement frequency, can be built, and the EKF with its process model run on its inputs and
measurements from the initial pose, with any covariance, with or without outlier rejection, returns exactly the ground truth. -/
theorem C100_ranging (dir : Dir) (Q : Matrix (Fin 3 ⊕ Fin 3) (Fin 3 ⊕ Fin 3) ℝ) (hQ : Q.PosSemidef) (R : ℝ) (hR : 0 < R)
    (inputFreq measFreq : ℝ) (hf : 0 < inputFreq) (hm : 0 < measFreq) (q : ℕ) (hq : inputFreq = q * measFreq)
    (x0 : {X // IsSE3 X}) (start stop : ℝ) (hs : start < stop) (t1 : Tick start) (t2 : Tick (1 / inputFreq)) (t3 : Tick (1 / measFreq))
    (rej : Bool) (chi : ℕ → ℝ) (P0 : Mat 6 6) (hP : P0.PosSemidef) :
    ∃ D rs, rangingDataset dir Q R inputFreq measFreq x0 start stop none = .ok D ∧
      runFilter (ekfApi (se3Ekf dir Q rej chi)) ⟨⟨x0, some start⟩, P0⟩ D.inputLog D.measLog = .ok rs ∧
      rs.map SWC.state = D.states.dropLast.dropLast.map (fun x => (⟨x.1, some x.2⟩ : St {X // IsSE3 X})) := by
  have hinfo : ∀ r ∈ (rangingGen dir Q R inputFreq measFreq).info, ∃ p : Vec 3 × Vec 3, r = ⟨1, anchorModel dir p.1 p.2 R, measFreq, 0⟩ := by
    intro r hr
    obtain ⟨p, _, rfl⟩ := List.mem_map.mp hr
    exact ⟨p, rfl⟩
  obtain ⟨D, rs, h1, h2, h3, _⟩ := ticks_ekf (g := rangingGen dir Q R inputFreq measFreq) (start := start) (stop := stop)
    { freq := hf
      period := t2
      start := t1
      info := fun r hr => by
        obtain ⟨p, rfl⟩ := hinfo r hr
        exact ⟨hm, le_refl _, t3, ⟨0, by simp⟩⟩ } hs
    (fun r hr => by
      obtain ⟨p, rfl⟩ := hinfo r hr
      exact ⟨rfl, q, hq⟩)
    (fun r hr x => by
      obtain ⟨p, rfl⟩ := hinfo r hr
      exact Option.some_ne_none _)
    (fun r hr x => by
      obtain ⟨p, rfl⟩ := hinfo r hr
      exact scalar_posDef hR)
    (fun v u s => Subtype.ext (congrArg GSt.value (C78_flow se3_laws ⟨v.1, dir, some s⟩ u.value 0 0).2))
    (fun t v => rfl) (se3Ekf dir Q rej chi) rfl
    (fun v => by
      refine Subtype.ext ?_
      have e : ((0 : Vec 6) ∘ se3Eqv) = 0 := rfl
      show (GSt.plus se3 ⟨v.1, dir, none⟩ ((0 : Vec 6) ∘ se3Eqv)).value = v.1
      rw [e]
      cases dir
      · exact (congrArg (v.1 * ·) se3_laws.Exp_zero).trans (mul_one _)
      · exact (congrArg (· * v.1) se3_laws.Exp_zero).trans (one_mul _))
    (fun x u dt _ => numbered_psd se3Eqv (hQ.mul_mul_conjTranspose_same (bfvNoise se3 ⟨x.value.1, dir, x.stamp⟩ u.value dt)))
    x0 P0 hP
  exact ⟨D, rs, h1, h2, h3⟩

theorem tick_of_nat (k z : ℕ) (hk : 0 < k) (h : (k : ℝ) * z = 10 ^ 10) : Tick (1 / (k : ℝ)) := by
  refine ⟨z, ?_⟩
  have : (k : ℝ) ≠ 0 := by exact_mod_cast hk.ne'
  rw [← h]
  push_cast
  field_simp

/-- The defaults of `SimulatedPoseRangingDataset`: 100 Hz and 10 Hz, from 0 to 30. -/
example : ∃ D rs, rangingDataset .right (Matrix.diagonal (Sum.elim (fun _ => 0.01 ^ 2) fun _ => 0.1)) 0.01 100 10 ⟨1, se3_laws.mem_one⟩ 0 30
      none = .ok D ∧
    runFilter (ekfApi (se3Ekf .right (Matrix.diagonal (Sum.elim (fun _ => 0.01 ^ 2) fun _ => 0.1)) false fun _ => 0))
      ⟨⟨⟨1, se3_laws.mem_one⟩, some 0⟩, 1⟩ D.inputLog D.measLog = .ok rs ∧
    rs.map SWC.state = D.states.dropLast.dropLast.map (fun x => (⟨x.1, some x.2⟩ : St {X // IsSE3 X})) :=
  C100_ranging .right _ (Matrix.PosSemidef.diagonal fun i => by rcases i with i | i <;> simp <;> norm_num) _ (by norm_num) 100 10 (by norm_num)
    (by norm_num) 10 (by norm_num) _ 0 30 (by norm_num) ⟨0, by simp⟩
    (by have := tick_of_nat 100 100000000 (by norm_num) (by norm_num); exact_mod_cast this)
    (by have := tick_of_nat 10 1000000000 (by norm_num) (by norm_num); exact_mod_cast this) false _ 1 Matrix.PosSemidef.one

/-! ### The inertial datasets -/

theorem gMatrix_zero (g : Vec 3) : gMatrix g 0 = 1 := by
  unfold gMatrix
  rw [← mkIE_one]
  congr 1
  · simp
  · simp
  · simp

theorem uMatrix_zero (tol : ℝ) (om acc : Vec 3) : uMatrix tol om acc 0 = 1 := by
  unfold uMatrix
  rw [← mkIE_one]
  simp only [zero_smul]
  have h0 : so3Exp (0 : Vec 3) = 1 := so3_laws.Exp_zero
  congr 1
  · simp
  · simp

theorem imuCovariance_some (tol : ℝ) (g : Vec 3) (Q : Blk 4 4) (x : NavBias) (dir : Dir) (st : Option ℝ) (u : ImuVal) (us : Option ℝ) (dt : ℝ) :
    ∃ P, imuCovariance tol g Q (x.toSt dir st) (imuObj u us) dt = .ok P := ⟨_, rfl⟩

/-- What the two datasets measure: the position, or landmarks. -/
def InertialModel (dir : Dir) (m : MeasModel NavBias 15 3) : Prop :=
  ∃ R : Mat 3 3, R.PosDef ∧ (m = gpsModel dir R ∨ ∃ p, m = imuLandmarkModel dir R p)

/-- **C100, inertial.** The same for the inertial datasets, whatever was drawn for the bias walks: without noise, the EKF returns the ground
truth, biases included. -/
theorem C100_inertial (tol : ℝ) (dir : Dir) (Q : Blk 4 4) (hQ : Q.flat.PosSemidef) (models : List (MeasModel NavBias 15 3))
    (hmod : ∀ m ∈ models, InertialModel dir m)
    (inputFreq measFreq : ℝ) (hf : 0 < inputFreq) (hm : 0 < measFreq) (q : ℕ) (hq : inputFreq = q * measFreq) (walk : ℝ → Vec 3 × Vec 3)
    (x0 : NavBias) (start stop : ℝ) (hs : start < stop) (t1 : Tick start) (t2 : Tick (1 / inputFreq)) (t3 : Tick (1 / measFreq))
    (rej : Bool) (chi : ℕ → ℝ) (P0 : Mat 15 15) (hP : P0.PosSemidef) :
    ∃ D rs, inertialDataset tol dir Q models inputFreq measFreq walk x0 start stop none = .ok D ∧
      runFilter (ekfApi (imuEkf tol ![0, 0, -9.80665] dir Q rej chi)) ⟨⟨x0, some start⟩, P0⟩ D.inputLog D.measLog = .ok rs ∧
      rs.map SWC.state = D.states.dropLast.dropLast.map (fun x => (⟨x.1, some x.2⟩ : St NavBias)) := by
  have hinfo : ∀ r ∈ (inertialGen tol dir Q models inputFreq measFreq walk).info, ∃ m ∈ models, r = ⟨3, m, measFreq, 0⟩ := by
    intro r hr
    obtain ⟨p, hp, rfl⟩ := List.mem_map.mp hr
    exact ⟨p, hp, rfl⟩
  obtain ⟨D, rs, h1, h2, h3, _⟩ := ticks_ekf (g := inertialGen tol dir Q models inputFreq measFreq walk) (start := start) (stop := stop)
    { freq := hf
      period := t2
      start := t1
      info := fun r hr => by
        obtain ⟨m, _, rfl⟩ := hinfo r hr
        exact ⟨hm, le_refl _, t3, ⟨0, by simp⟩⟩ } hs
    (fun r hr => by
      obtain ⟨m, _, rfl⟩ := hinfo r hr
      exact ⟨rfl, q, hq⟩)
    (fun r hr x => by
      obtain ⟨m, hm', rfl⟩ := hinfo r hr
      obtain ⟨R, _, rfl | ⟨p, rfl⟩⟩ := hmod m hm'
      · exact Option.some_ne_none _
      · exact Option.some_ne_none _)
    (fun r hr x => by
      obtain ⟨m, hm', rfl⟩ := hinfo r hr
      obtain ⟨R, hR, rfl | ⟨p, rfl⟩⟩ := hmod m hm'
      · exact hR
      · exact hR)
    (fun v u s => by
      obtain ⟨⟨X, hX⟩, bg, ba⟩ := v
      show NavBias.mk ⟨gMatrix _ 0 * X * uMatrix tol (u.value 0 - bg) (u.value 1 - ba) 0, _⟩ (bg + (0 : ℝ) • u.value 2) (ba + (0 : ℝ) • u.value 3) = _
      simp only [gMatrix_zero, uMatrix_zero, one_mul, mul_one, zero_smul, add_zero])
    (fun t v => rfl) (imuEkf tol ![0, 0, -9.80665] dir Q rej chi) rfl
    (fun v => by
      obtain ⟨⟨X, hX⟩, bg, ba⟩ := v
      have hz : (![fun p => (0 : Vec 15) (imuEqv (0, p)), fun p => (0 : Vec 15) (imuEqv (1, p)), fun p => (0 : Vec 15) (imuEqv (2, p))] :
          Fin 3 → Vec 3) = fun _ => 0 := by
        funext i p
        fin_cases i <;> rfl
      have hp : ((NavBias.toSt ⟨⟨X, hX⟩, bg, ba⟩ dir none).plus fun i p => (0 : Vec 15) (imuEqv (i, p))).pose = X := by
        show (ImuSt.plusNav ⟨X, some (bg, ba), dir, none⟩ _).pose = X
        rw [hz]
        cases dir
        · exact (congrArg (X * ·) se23Exp_zero).trans (mul_one _)
        · exact (congrArg (· * X) se23Exp_zero).trans (one_mul _)
      show NavBias.mk ⟨_, _⟩ _ _ = _
      have hb : ∀ (i : Fin 5) (b : Vec 3), (b + fun p => (0 : Vec 15) (imuEqv (i, p))) = b := fun i b => add_zero b
      simp only [hp, hb])
    (fun x u dt _ => by
      obtain ⟨P, hP⟩ := imuCovariance_some tol ![0, 0, -9.80665] Q x.value dir x.stamp u.value u.stamp dt
      show (numbered imuEqv (((imuCovariance tol ![0, 0, -9.80665] Q (x.value.toSt dir x.stamp) (imuObj u.value u.stamp) dt).toOption.getD 0).flat)).PosSemidef
      rw [hP]
      exact numbered_psd imuEqv (C76_covariance_psd tol _ Q hQ _ _ dt P hP))
    x0 P0 hP
  refine ⟨D, rs, ?_, h2, h3⟩
  unfold inertialDataset
  rw [h1, ok_bindE]
  rfl

/-- Specification: the acceleration in the world frame that the simulated vehicle is meant to have at time `t`. -/
noncomputable def intendedAcc (t : ℝ) : Vec 3 := ![-3 * Real.cos t, -3 * Real.sin t, -9 * Real.sin (3 * t)]

/-- **C100, the simulated readings.** Whatever the attitude and the biases of the state are, a vehicle that moves by the kinematics with the
unbiased reading of time `t` turns at `(0.1, 0, 0.5)` rad/s in its own frame and has, at that time, the intended acceleration. -/
theorem C100_readings (w : Vec 3 × Vec 3) (t : ℝ) (x : NavBias) (C : ℝ → Mat 3 3) (v r : ℝ → Vec 3)
    (h : IsImuTrajectory (imuProfile w t x 0 - x.bg) (imuProfile w t x 1 - x.ba) ![0, 0, -9.80665] C v r)
    (h0 : C 0 = EPose.rot x.pose.1) :
    (∀ i, HasDerivAt (fun s => v s i) (intendedAcc t i) 0) ∧
    ∀ s i j, HasDerivAt (fun s => C s i j) ((C s * skew ![0.1, 0, 0.5]) i j) s := by
  have e0 : imuProfile w t x 0 - x.bg = ![0.1, 0, 0.5] := add_sub_cancel_right _ _
  have ho : EPose.rot x.pose.1 * (EPose.rot x.pose.1)ᵀ = 1 := by
    have := x.pose.2.ortho
    exact mul_eq_one_comm.mp this
  have e1 : EPose.rot x.pose.1 *ᵥ (imuProfile w t x 1 - x.ba) + ![0, 0, -9.80665] = intendedAcc t := by
    have : imuProfile w t x 1 - x.ba = (EPose.rot x.pose.1)ᵀ *ᵥ (intendedAcc t - ![0, 0, -9.80665]) := by
      rw [mulVec_sub]
      show (EPose.rot x.pose.1)ᵀ *ᵥ intendedAcc t + x.ba - (EPose.rot x.pose.1)ᵀ *ᵥ ![0, 0, -9.80665] - x.ba = _
      abel
    rw [this, mulVec_mulVec, ho, one_mulVec, sub_add_cancel]
  refine ⟨fun i => ?_, fun s i j => ?_⟩
  · have := h.vel 0 i
    rw [h0, e1] at this
    exact this
  · have := h.att s i j
    rwa [e0] at this

/-- The kinematics with such a reading exist. -/
example (w : Vec 3 × Vec 3) (t : ℝ) (x : NavBias) :
    ∃ C v r, IsImuTrajectory (imuProfile w t x 0 - x.bg) (imuProfile w t x 1 - x.ba) ![0, 0, -9.80665] C v r ∧ C 0 = EPose.rot x.pose.1 := by
  obtain ⟨C, v, r, h, h0, _⟩ := traj_exists (imuProfile w t x 0 - x.bg) (imuProfile w t x 1 - x.ba) ![0, 0, -9.80665] (EPose.rot x.pose.1) 0 0
  exact ⟨C, v, r, h, h0⟩

/-! ### What noise does and does not change -/

theorem fill_noise {g : DataGen V U n nu} {s1 s2 : Option (NoiseSrc nu)} {tn : ℝ} {u : U × ℝ} :
    ∀ {ys : List (GenMeas V n)} {j j' : ℕ} {x : V × ℝ} {r r' : (V × ℝ) × List (GenMeas V n) × List (GenMeas V n)},
      g.fill s1 tn u ys j x = .ok r → g.fill s2 tn u ys j' x = .ok r' →
      r.1 = r'.1 ∧ r.2.2 = r'.2.2 ∧ r.2.1.map GenMeas.tag = r'.2.1.map GenMeas.tag
  | [], j, j', x, r, r', h, h' => by cases h; cases h'; simp
  | y :: ys, j, j', x, r, r', h, h' => by
    by_cases hd : y.stamp < tn
    · obtain ⟨v, q, _, h2, rfl⟩ := fill_cons_due hd h
      obtain ⟨v', q', _, h2', rfl⟩ := fill_cons_due hd h'
      obtain ⟨a, b, c⟩ := fill_noise h2 h2'
      exact ⟨a, b, by simp only [List.map_cons, c]; rfl⟩
    · rw [fill_cons_wait hd] at h h'
      cases h
      cases h'
      simp

theorem loop_noise {g : DataGen V U n nu} {s1 s2 : Option (NoiseSrc nu)} :
    ∀ {ts : List ℝ} {t : ℝ} {k j j' : ℕ} {v : V} {ys : List (GenMeas V n)}
      {R R' : List (V × ℝ) × List (U × ℝ) × List (GenMeas V n) × List (GenMeas V n)},
      g.loop s1 ts t k (v, t) ys j = .ok R → g.loop s2 ts t k (v, t) ys j' = .ok R' →
      R.1 = R'.1 ∧ R.2.1.map Prod.snd = R'.2.1.map Prod.snd ∧
      (R.2.2.1 ++ R.2.2.2).map GenMeas.tag = (R'.2.2.1 ++ R'.2.2.2).map GenMeas.tag
  | [], t, k, j, j', v, ys, R, R', h, h' => by cases h; cases h'; simp
  | tn :: ts, t, k, j, j', v, ys, R, R', h, h' => by
    obtain ⟨r, uo, S, h1, h2, h3, rfl⟩ := loop_cons h
    obtain ⟨r', uo', S', h1', h2', h3', rfl⟩ := loop_cons h'
    obtain ⟨a, b, c⟩ := fill_noise h1 h1'
    rw [← a, ← b] at h3'
    obtain ⟨d1, d2, d3⟩ := loop_noise (j' := j' + r'.2.1.length) (t := tn) (v := (g.move r.1 (g.inputAt (v, t)) tn).1) h3 h3'
    have hu : ∀ (s : Option (NoiseSrc nu)) (o : U × ℝ), g.inputOut s k t (g.inputAt (v, t)) = .ok o → o.2 = (g.inputAt (v, t)).2 := by
      intro s o ho
      cases s with
      | none => cases ho; rfl
      | some s =>
        obtain ⟨w, _, ho⟩ := bind_ok ho
        cases ho
        rfl
    refine ⟨?_, ?_, ?_⟩
    · simp only [a, d1]
    · simp only [List.map_cons, d2, hu s1 uo h2, hu s2 uo' h2']
    · simp only [List.map_append, List.append_assoc] at d3 ⊢
      rw [c, d3]

theorem sortByStamp_map {α β : Type} (f : α → β) (key : β → ℝ) (l : List α) :
    (sortByStamp (fun a => key (f a)) l).map f = sortByStamp key (l.map f) := by
  have h := sortByStamp_perm (fun a => key (f a)) l
  unfold sortByStamp
  rw [List.map_mergeSort]
  intro a _ b _
  rfl

/-- **C100, noise.** Noise changes neither the ground truth, nor the stamps of the inputs, nor which measurements are taken when, for any
generator. -/
theorem C100_noise (g : DataGen V U n nu) (x0 : V) (start stop : ℝ) (s1 s2 : Option (NoiseSrc nu)) (D1 D2 : GenData V U n)
    (h1 : g.generate x0 start stop s1 = .ok D1) (h2 : g.generate x0 start stop s2 = .ok D2) :
    D1.states = D2.states ∧ D1.inputs.map Prod.snd = D2.inputs.map Prod.snd ∧ D1.meas.map GenMeas.tag = D2.meas.map GenMeas.tag := by
  obtain ⟨t0, ts, ys, R, _, hg, hr, hl, rfl⟩ := datagen_ok h1
  obtain ⟨t0', ts', ys', R', _, hg', hr', hl', rfl⟩ := datagen_ok h2
  rw [hg] at hg'
  cases hg'
  rw [hr] at hr'
  cases hr'
  obtain ⟨a, b, c⟩ := loop_noise hl hl'
  refine ⟨?_, ?_, ?_⟩
  · simp only [a]
  · have e := sortByStamp_map (Prod.snd : U × ℝ → ℝ) id R.2.1
    have e' := sortByStamp_map (Prod.snd : U × ℝ → ℝ) id R'.2.1
    rw [b] at e
    exact e.trans e'.symm
  · have e := sortByStamp_map (GenMeas.tag : GenMeas V n → _) (fun p => p.2.2) (R.2.2.1 ++ R.2.2.2)
    have e' := sortByStamp_map (GenMeas.tag : GenMeas V n → _) (fun p => p.2.2) (R'.2.2.1 ++ R'.2.2.2)
    rw [c] at e
    exact e.trans e'.symm

/-- A quantity that grows at a rate given by the input alone does so in the ground truth. -/
theorem loop_rate {W : Type} [AddCommGroup W] [Module ℝ W] {g : DataGen V U n nu} {noise : Option (NoiseSrc nu)} (φ : V → W) (ρ : U → W)
    (hφ : ∀ x u dt, φ (g.proc.evaluate x u dt).value = φ x.value + dt • ρ u.value) :
    ∀ {ts : List ℝ} {t : ℝ} {k j : ℕ} {v : V} {ys : List (GenMeas V n)}
      {R : List (V × ℝ) × List (U × ℝ) × List (GenMeas V n) × List (GenMeas V n)},
      g.loop noise ts t k (v, t) ys j = .ok R → ∀ (i : ℕ) (x x' : V × ℝ), ((v, t) :: R.1)[i]? = some x → ((v, t) :: R.1)[i + 1]? = some x' →
        φ x'.1 = φ x.1 + (x'.2 - x.2) • ρ (g.inputAt x).1 := by
  have hfill : ∀ (tn : ℝ) (u : U × ℝ) (ys : List (GenMeas V n)) (j : ℕ) (x : V × ℝ) (r : (V × ℝ) × List (GenMeas V n) × List (GenMeas V n)),
      g.fill noise tn u ys j x = .ok r → φ r.1.1 = φ x.1 + (r.1.2 - x.2) • ρ u.1 := by
    intro tn u ys
    induction ys with
    | nil => intro j x r h; cases h; simp
    | cons y ys ih =>
      intro j x r h
      by_cases hd : y.stamp < tn
      · obtain ⟨v, q, _, h2, rfl⟩ := fill_cons_due hd h
        have h3 := ih (j + 1) _ q h2
        show φ q.1.1 = _
        rw [h3, show φ (g.move x u y.stamp).1 = φ x.1 + (y.stamp - x.2) • ρ u.1 from hφ _ _ _,
          show (g.move x u y.stamp).2 = y.stamp from rfl, add_assoc, ← add_smul]
        congr 2
        ring
      · rw [fill_cons_wait hd] at h
        cases h
        simp
  intro ts
  induction ts with
  | nil =>
    intro t k j v ys R h i x x' hx hx'
    cases h
    simp at hx'
  | cons tn ts ih =>
    intro t k j v ys R h i x x' hx hx'
    obtain ⟨r, uo, S, h1, h2, h3, rfl⟩ := loop_cons h
    cases i with
    | zero =>
      simp only [List.getElem?_cons_zero, List.getElem?_cons_succ, Option.some.injEq] at hx hx'
      subst hx hx'
      have e := hfill tn _ ys j _ r h1
      show φ (g.move r.1 (g.inputAt (v, t)) tn).1 = _
      rw [show φ (g.move r.1 (g.inputAt (v, t)) tn).1 = φ r.1.1 + (tn - r.1.2) • ρ (g.inputAt (v, t)).1 from hφ _ _ _, e,
        add_assoc, ← add_smul]
      congr 2
      show r.1.2 - t + (tn - r.1.2) = tn - t
      ring
    | succ i => exact ih (t := tn) (v := (g.move r.1 (g.inputAt (v, t)) tn).1) h3 i x x' hx hx'

/-- **C100, the biases drift at random even without noise.** In the ground truth of an inertial dataset, with or without
`noise_active`, the biases move from one sample to the next by the time between them times the walk drawn at the first. -/
theorem C100_bias_walk (tol : ℝ) (dir : Dir) (Q : Blk 4 4) (models : List (MeasModel NavBias 15 3)) (inputFreq measFreq : ℝ)
    (hf : 0 < inputFreq) (walk : ℝ → Vec 3 × Vec 3) (x0 : NavBias) (start stop : ℝ) (noise : Option (NoiseSrc 12))
    (D : GenData NavBias ImuVal 15) (h : inertialDataset tol dir Q models inputFreq measFreq walk x0 start stop noise = .ok D)
    (k : ℕ) (x x' : NavBias × ℝ) (hx : D.states[k]? = some x) (hx' : D.states[k + 1]? = some x') :
    x'.1.bg = x.1.bg + (x'.2 - x.2) • (walk x.2).1 ∧ x'.1.ba = x.1.ba + (x'.2 - x.2) • (walk x.2).2 := by
  unfold inertialDataset at h
  obtain ⟨D', hD', h⟩ := bind_ok h
  have hst : D.states = D'.states := by
    cases noise <;> cases h <;> rfl
  rw [hst] at hx hx'
  obtain ⟨t0, ts, ys, R, _, hg, hr, hl, rfl⟩ := datagen_ok hD'
  obtain ⟨a1, a2, _⟩ := loop_struct hl
  simp only [states_unsorted (g := inertialGen tol dir Q models inputFreq measFreq walk) hf hg a1] at hx hx'
  exact ⟨loop_rate (W := Vec 3) NavBias.bg (fun u => u 2) (fun _ _ _ => rfl) hl k x x' hx hx',
    loop_rate (W := Vec 3) NavBias.ba (fun u => u 3) (fun _ _ _ => rfl) hl k x x' hx hx'⟩

/-- The `OnTicks` of an inertial dataset. -/
theorem inertial_ticks {tol : ℝ} {dir : Dir} {Q : Blk 4 4} {models : List (MeasModel NavBias 15 3)} {inputFreq measFreq : ℝ}
    (hf : 0 < inputFreq) (hm : 0 < measFreq) (walk : ℝ → Vec 3 × Vec 3) {start : ℝ} (t1 : Tick start) (t2 : Tick (1 / inputFreq))
    (t3 : Tick (1 / measFreq)) : OnTicks (inertialGen tol dir Q models inputFreq measFreq walk) start :=
  { freq := hf
    period := t2
    start := t1
    info := fun r hr => by
      obtain ⟨p, _, rfl⟩ := List.mem_map.mp hr
      exact ⟨hm, le_refl _, t3, ⟨0, by simp⟩⟩ }

/-- **C100, not reproducible.** So two constructions with the same arguments and `noise_active=False` give different ground truths when the
walks drawn at the start differ (and there are at least two samples). -/
theorem C100_not_reproducible (tol : ℝ) (dir : Dir) (Q : Blk 4 4) (hQ : Q.flat.PosSemidef) (models : List (MeasModel NavBias 15 3))
    (hmod : ∀ m ∈ models, InertialModel dir m)
    (inputFreq measFreq : ℝ) (hf : 0 < inputFreq) (hm : 0 < measFreq) (q : ℕ) (hq : inputFreq = q * measFreq) (w1 w2 : ℝ → Vec 3 × Vec 3)
    (x0 : NavBias) (start stop : ℝ) (hs : start + 1 / inputFreq < stop) (t1 : Tick start) (t2 : Tick (1 / inputFreq)) (t3 : Tick (1 / measFreq))
    (hw : w1 start ≠ w2 start) :
    ∃ D1 D2, inertialDataset tol dir Q models inputFreq measFreq w1 x0 start stop none = .ok D1 ∧
      inertialDataset tol dir Q models inputFreq measFreq w2 x0 start stop none = .ok D2 ∧ D1.states ≠ D2.states := by
  have hp : 0 < 1 / inputFreq := by positivity
  obtain ⟨D1, _, h1, _⟩ := C100_inertial tol dir Q hQ models hmod inputFreq measFreq hf hm q hq w1 x0 start stop (by linarith) t1 t2 t3 false
    (fun _ => 0) 1 Matrix.PosSemidef.one
  obtain ⟨D2, _, h2, _⟩ := C100_inertial tol dir Q hQ models hmod inputFreq measFreq hf hm q hq w2 x0 start stop (by linarith) t1 t2 t3 false
    (fun _ => 0) 1 Matrix.PosSemidef.one
  refine ⟨D1, D2, h1, h2, fun he => ?_⟩
  have hN : 2 ≤ ⌈(stop - start) * inputFreq⌉₊ := by
    have : 1 < (stop - start) * inputFreq := by
      have : 1 / inputFreq * inputFreq < (stop - start) * inputFreq := mul_lt_mul_of_pos_right (by linarith) hf
      rwa [one_div_mul_cancel hf.ne'] at this
    exact Nat.lt_ceil.mpr (by exact_mod_cast this)
  have hg1 := h1
  unfold inertialDataset at hg1
  obtain ⟨D, hD, hg1⟩ := bind_ok hg1
  cases hg1
  have hst := ticks_states (inertial_ticks hf hm w1 t1 t2 t3) hD
  have hget : ∀ k : ℕ, k < 2 → ∃ x : NavBias × ℝ, D.states[k]? = some x ∧ x.2 = start + k / inputFreq := by
    intro k hk
    have h3 := congrArg (fun l => l[k]?) hst
    simp only [List.getElem?_map] at h3
    rw [List.getElem?_range (show k < ⌈(stop - start) * (inertialGen tol dir Q models inputFreq measFreq w1).inputFreq⌉₊ from by
      exact lt_of_lt_of_le hk hN)] at h3
    obtain ⟨x, hx, hx2⟩ := Option.map_eq_some_iff.mp h3
    exact ⟨x, hx, hx2⟩
  obtain ⟨x, hx, ex⟩ := hget 0 (by omega)
  obtain ⟨x', hx', ex'⟩ := hget 1 (by omega)
  have e1 : x.2 = start := by rw [ex]; simp
  have e2 : x'.2 - x.2 ≠ 0 := by
    rw [ex', e1]
    push_cast
    simp only [add_sub_cancel_left, ne_eq]
    exact hp.ne'
  have a := C100_bias_walk tol dir Q models inputFreq measFreq hf w1 x0 start stop none _ h1 0 x x' hx hx'
  rw [show D.states = D2.states from he] at hx hx'
  have b := C100_bias_walk tol dir Q models inputFreq measFreq hf w2 x0 start stop none D2 h2 0 x x' hx hx'
  rw [e1] at a b e2
  rw [a.1, a.2] at b
  exact hw (Prod.ext (smul_right_injective (Vec 3) e2 (add_left_cancel b.1)) (smul_right_injective (Vec 3) e2 (add_left_cancel b.2)))

/-- The defaults of `SimulatedInertialGPSDataset`: 200 Hz and 5 Hz, from 0 to 50 (the identity stands for the default initial pose). -/
example (tol : ℝ) : ∃ D1 D2, inertialDataset tol .right 1 [gpsModel .right 1] 200 5 (fun _ => 0) ⟨⟨1, se23_laws.mem_one⟩, 0, 0⟩ 0 50 none = .ok D1 ∧
    inertialDataset tol .right 1 [gpsModel .right 1] 200 5 (fun _ => 1) ⟨⟨1, se23_laws.mem_one⟩, 0, 0⟩ 0 50 none = .ok D2 ∧
    D1.states ≠ D2.states :=
  C100_not_reproducible tol .right 1 (by rw [Blk.flat_one]; exact Matrix.PosSemidef.one) _
    (fun m hm => ⟨1, Matrix.PosDef.one, Or.inl (List.mem_singleton.mp hm)⟩) 200 5 (by norm_num) (by norm_num) 40 (by norm_num) _ _ _ 0 50
    (by norm_num) ⟨0, by simp⟩
    (by have := tick_of_nat 200 50000000 (by norm_num) (by norm_num); exact_mod_cast this)
    (by have := tick_of_nat 5 2000000000 (by norm_num) (by norm_num); exact_mod_cast this)
    (fun h => by have := congrFun (congrArg Prod.fst h) 0; exact zero_ne_one this)

/-- **C100, noisy inertial inputs.** With `noise_active` the returned inputs say that the biases do not move. -/
theorem C100_noisy_inputs (tol : ℝ) (dir : Dir) (Q : Blk 4 4) (models : List (MeasModel NavBias 15 3)) (inputFreq measFreq : ℝ)
    (walk : ℝ → Vec 3 × Vec 3) (x0 : NavBias) (start stop : ℝ) (noise : NoiseSrc 12)
    (D : GenData NavBias ImuVal 15) (h : inertialDataset tol dir Q models inputFreq measFreq walk x0 start stop (some noise) = .ok D) :
    ∀ u ∈ D.inputs, u.1 2 = 0 ∧ u.1 3 = 0 := by
  unfold inertialDataset at h
  obtain ⟨D', hD', h⟩ := bind_ok h
  cases h
  intro u hu
  obtain ⟨u', _, rfl⟩ := List.mem_map.mp hu
  exact ⟨rfl, rfl⟩

/-! ### C101: TUM files -/

/-- Specification: the state in a row of a TUM file. -/
def TumRow (fromQuat : Vec 4 → Mat 3 3) (row : List ℝ) (x : St Pose) : Prop :=
  ∃ t px py pz qx qy qz qw : ℝ, row = [t, px, py, pz, qx, qy, qz, qw] ∧ x.stamp = some t ∧ x.value.pos = ![px, py, pz] ∧
    x.value.rot = fromQuat ![qx, qy, qz, qw]

/-- **C101, files of two or more lines.** With at least two lines of eight numbers, there is one state for each line, in the order of the
lines, with the stamp, position and attitude of the line. -/
theorem C101_load (fromQuat : Vec 4 → Mat 3 3) (rows : List (List ℝ)) (h : ∀ r ∈ rows, r.length = 8) (h2 : 2 ≤ rows.length) :
    ∃ xs, loadTum fromQuat rows = .ok xs ∧ List.Forall₂ (TumRow fromQuat) rows xs := by
  have hh : (rows.headD []).length = 8 := by
    cases rows with
    | nil => simp at h2
    | cons r rows => exact h r (by simp)
  refine ⟨rows.map (tumState fromQuat), ?_, ?_⟩
  · unfold loadTum
    rw [if_neg (by rintro ⟨r, hr, hn⟩; exact hn ((h r hr).trans hh.symm)), if_neg (by omega), if_neg (by omega)]
  · rw [List.forall₂_map_right_iff, List.forall₂_same]
    intro r hr
    have hr8 := h r hr
    match r, hr8 with
    | [t, px, py, pz, qx, qy, qz, qw], _ =>
      refine ⟨t, px, py, pz, qx, qy, qz, qw, rfl, rfl, ?_, ?_⟩
      · show (mkPose _ _).pos = _
        rw [mkPose_pos]
        funext i
        fin_cases i <;> rfl
      · show (mkPose _ _).rot = _
        rw [mkPose_rot]
        congr 1
        funext i
        fin_cases i <;> rfl

/-- **C101, other files.** A file with one line (or none) of numbers raises `IndexError`, even if the line is a correct one; lines that do
not have eight numbers each raise `ValueError` (`IndexError` if each has at most one). -/
theorem C101_errors (fromQuat : Vec 4 → Mat 3 3) (rows : List (List ℝ)) :
    (rows.length ≤ 1 → loadTum fromQuat rows = .error .indexError) ∧
    (2 ≤ rows.length → (∃ r ∈ rows, r.length ≠ 8) → loadTum fromQuat rows = .error .valueError ∨
      (loadTum fromQuat rows = .error .indexError ∧ ∀ r ∈ rows, r.length ≤ 1)) := by
  refine ⟨fun h => ?_, fun h2 h => ?_⟩
  · unfold loadTum
    rw [if_neg, if_pos (Or.inl h)]
    rintro ⟨r, hr, hn⟩
    match rows, h with
    | [a], _ =>
      rw [List.mem_singleton] at hr
      subst hr
      exact hn rfl
  · unfold loadTum
    by_cases hn : ∃ r ∈ rows, r.length ≠ (rows.headD []).length
    · rw [if_pos hn]
      exact Or.inl rfl
    · rw [if_neg hn]
      push Not at hn
      by_cases h1 : (rows.headD []).length ≤ 1
      · rw [if_pos (Or.inr h1)]
        exact Or.inr ⟨rfl, fun r hr => (hn r hr).le.trans h1⟩
      · rw [if_neg (by omega)]
        obtain ⟨r, hr, h8⟩ := h
        rw [if_pos (by rw [← hn r hr]; exact h8)]
        exact Or.inl rfl

/-- Two lines. -/
example : ∀ r ∈ [[0, 1, 2, 3, 0, 0, 0, (1 : ℝ)], [1, 1, 2, 4, 0, 0, 1, 0]], r.length = 8 := by simp

end Verif
