import Verif.Lemmas.Datagen
import Verif.Props.MixtureGrad
import Mathlib.Tactic.NormNum

/-!
Properties of the data generator (`navlie/datagen.py`): C56, C57, C74.
-/

namespace Verif

set_option linter.unusedVariables false
set_option linter.unusedSectionVars false

variable {V U : Type} {n nu : ℕ}

/-- Specification: the true state at time `t` when the true state at the beginning of the interval is `x`: the process
model is applied for the elapsed time with the (noiseless) input of that interval. -/
def truthAt (g : DataGen V U n nu) (x : V × ℝ) (t : ℝ) : V :=
  (g.proc.evaluate ⟨x.1, some x.2⟩
    ⟨((g.inputFunc x.2 x.1).toInput x.2).1, some ((g.inputFunc x.2 x.1).toInput x.2).2⟩ (t - x.2)).value

/-- Specification: the stamps `start + i / freq`, before `stop`, rounded to 12 decimals. -/
noncomputable def gridSpec (start stop freq : ℝ) : List ℝ :=
  (List.range ⌈(stop - start) * freq⌉₊).map fun i : ℕ => round12 (start + i / freq)

theorem grid_sorted {a b f : ℝ} (hf : 0 < f) : (gridSpec a b f).Pairwise (· ≤ ·) := by
  unfold gridSpec
  rw [List.pairwise_map]
  refine List.Pairwise.imp ?_ (List.pairwise_lt_range (n := ⌈(b - a) * f⌉₊))
  intro i j hij
  apply round12_mono
  have : (i : ℝ) / f ≤ j / f := div_le_div_of_nonneg_right (by exact_mod_cast hij.le) hf.le
  linarith

theorem datagen_ok {g : DataGen V U n nu} {x0 : V} {start stop : ℝ} {noise : Option (NoiseSrc nu)} {D : GenData V U n}
    (h : g.generate x0 start stop noise = .ok D) :
    ∃ t0 ts ys R, g.inputFreq ≠ 0 ∧ gridSpec start stop g.inputFreq = t0 :: ts ∧
      g.requested t0 (ts.getLast?.getD t0) = .ok ys ∧ g.loop noise ts t0 0 (x0, t0) ys 0 = .ok R ∧
      D = { states := sortByStamp Prod.snd ((x0, t0) :: R.1), inputs := sortByStamp Prod.snd R.2.1,
            meas := sortByStamp GenMeas.stamp (R.2.2.1 ++ R.2.2.2) } := by
  unfold DataGen.generate at h
  obtain ⟨times, h1, h⟩ := bind_ok h
  obtain ⟨hf, ht⟩ := stampGrid_ok h1
  cases times with
  | nil => cases h
  | cons t0 ts =>
    obtain ⟨ys, h2, h⟩ := bind_ok h
    obtain ⟨R, h3, h⟩ := bind_ok h
    cases h
    exact ⟨t0, ts, ys, R, hf, ht.symm, h2, h3, rfl⟩

theorem states_unsorted {g : DataGen V U n nu} (hf : 0 < g.inputFreq) {start stop : ℝ} {t0 : ℝ} {ts : List ℝ}
    (hg : gridSpec start stop g.inputFreq = t0 :: ts) {x0 : V} {xs : List (V × ℝ)} (hx : xs.map Prod.snd = ts) :
    sortByStamp Prod.snd ((x0, t0) :: xs) = (x0, t0) :: xs := by
  apply sortByStamp_of_sorted
  have h := grid_sorted (a := start) (b := stop) hf
  rw [hg, ← hx] at h
  have h2 : (((x0, t0) :: xs).map Prod.snd).Pairwise (· ≤ ·) := h
  rw [List.pairwise_map] at h2
  exact h2

/-- **C56, stamps.** For a positive input frequency and any process model, `generate` returns one state for each of the
sample times `start + k / freq` before `stop` (rounded to 12 decimals), in time order, the first one being the initial
state; and one input less than states. -/
theorem C56_stamps {g : DataGen V U n nu} (hf : 0 < g.inputFreq) {x0 : V} {start stop : ℝ} {noise : Option (NoiseSrc nu)}
    {D : GenData V U n} (h : g.generate x0 start stop noise = .ok D) :
    D.states.map Prod.snd = gridSpec start stop g.inputFreq ∧
    (∃ t0, D.states[0]? = some (x0, t0)) ∧ D.inputs.length + 1 = D.states.length := by
  obtain ⟨t0, ts, ys, R, _, hg, hr, hl, rfl⟩ := datagen_ok h
  obtain ⟨a1, a2, _⟩ := loop_struct hl
  rw [show (GenData.mk (sortByStamp Prod.snd ((x0, t0) :: R.1)) (sortByStamp Prod.snd R.2.1)
    (sortByStamp GenMeas.stamp (R.2.2.1 ++ R.2.2.2))).states = (x0, t0) :: R.1 from states_unsorted hf hg a1]
  refine ⟨by simp [a1, hg], ⟨t0, rfl⟩, ?_⟩
  rw [show (GenData.mk (sortByStamp Prod.snd ((x0, t0) :: R.1)) (sortByStamp Prod.snd R.2.1)
    (sortByStamp GenMeas.stamp (R.2.2.1 ++ R.2.2.2))).inputs = sortByStamp Prod.snd R.2.1 from rfl,
    (sortByStamp_perm Prod.snd R.2.1).length_eq, a2]
  rw [← a1]
  simp

/-- **C56, ground truth.** For a process model with the flow property the successive ground truth states are linked by one
application of the process model with the noiseless input of the interval: no measurement, offset or noise occurs in this
description. -/
theorem C56_truth {g : DataGen V U n nu} (hf : 0 < g.inputFreq) (hfl : IsFlow g.proc) {x0 : V} {start stop : ℝ}
    {noise : Option (NoiseSrc nu)} {D : GenData V U n} (h : g.generate x0 start stop noise = .ok D)
    (k : ℕ) (x x' : V × ℝ) (hx : D.states[k]? = some x) (hx' : D.states[k + 1]? = some x') :
    x'.1 = truthAt g x x'.2 := by
  obtain ⟨t0, ts, ys, R, _, hg, hr, hl, rfl⟩ := datagen_ok h
  obtain ⟨a1, a2, _⟩ := loop_struct hl
  obtain ⟨b1, b2, b3⟩ := loop_flow hfl hl
  simp only [states_unsorted hf hg a1] at hx hx'
  rw [List.getElem?_cons_succ] at hx'
  have ht : ts[k]? = some x'.2 := by rw [← a1, List.getElem?_map, hx']; rfl
  have := b1 k x x'.2 hx ht
  rw [this] at hx'
  have e : x' = g.move x (g.inputAt x) x'.2 := (Option.some.inj hx').symm
  exact congrArg Prod.fst e

/-- **C56.** For a process model with the flow property the ground truth does not depend on the measurement schedule, on the
measurement models, on the input covariance, nor on whether noise is requested: two generators with the same process
model, input function and input frequency give the same states from the same initial state. -/
theorem C56_schedule_independent {g g' : DataGen V U n nu} (hf : 0 < g.inputFreq) (hfl : IsFlow g.proc)
    (hp : g'.proc = g.proc) (hi : g'.inputFunc = g.inputFunc) (hq : g'.inputFreq = g.inputFreq)
    {x0 : V} {start stop : ℝ} {noise noise' : Option (NoiseSrc nu)} {D D' : GenData V U n}
    (h : g.generate x0 start stop noise = .ok D) (h' : g'.generate x0 start stop noise' = .ok D') :
    D'.states = D.states := by
  obtain ⟨a1, ⟨t0, a2⟩, a3⟩ := C56_stamps hf h
  obtain ⟨b1, ⟨t1, b2⟩, b3⟩ := C56_stamps (hq ▸ hf) h'
  have hs : D'.states.map Prod.snd = D.states.map Prod.snd := by rw [a1, b1, hq]
  have hlen : D'.states.length = D.states.length := by simpa using congrArg List.length hs
  have hst : ∀ (k : ℕ) (x y : V × ℝ), D.states[k]? = some x → D'.states[k]? = some y → y.2 = x.2 := by
    intro k x y hx hy
    have := congrArg (fun l => l[k]?) hs
    simp only [List.getElem?_map, hx, hy, Option.map_some, Option.some.injEq] at this
    exact this
  apply List.ext_getElem? 
  intro k
  induction k with
  | zero =>
    have := hst 0 _ _ a2 b2
    rw [a2, b2]
    simp only at this
    rw [this]
  | succ k ih =>
    by_cases hk : k + 1 < D.states.length
    · have hk' : k + 1 < D'.states.length := by omega
      have e1 := List.getElem?_eq_getElem hk
      have e2 := List.getElem?_eq_getElem hk'
      have e3 := List.getElem?_eq_getElem (show k < D.states.length by omega)
      have e4 : D'.states[k]? = some D.states[k] := by rw [ih, e3]
      have t1 := C56_truth hf hfl h k _ _ e3 e1
      have t2 := C56_truth (hq ▸ hf) (hp ▸ hfl) h' k _ _ e4 e2
      have t3 := hst _ _ _ e1 e2
      rw [e1, e2]
      refine congrArg some (Prod.ext ?_ t3)
      rw [t1, t2, t3]
      unfold truthAt
      rw [hp, hi]
    · rw [List.getElem?_eq_none (by omega), List.getElem?_eq_none (by omega)]

/-- **C56, inputs.** When the input function returns raw values, the `k`-th returned input is stamped with the time of the
`k`-th state and is the input function evaluated at that state; with noise it is that value plus the `k`-th draw for the
input covariance of that time. -/
theorem C56_inputs {g : DataGen V U n nu} (hf : 0 < g.inputFreq) (hfl : IsFlow g.proc) {x0 : V} {start stop : ℝ}
    {noise : Option (NoiseSrc nu)} {D : GenData V U n} (h : g.generate x0 start stop noise = .ok D)
    (f : ℝ → V → U) (hraw : ∀ t v, g.inputFunc t v = .raw (f t v))
    (k : ℕ) (x : V × ℝ) (u : U × ℝ) (hx : D.states[k]? = some x) (hu : D.inputs[k]? = some u) :
    u.2 = x.2 ∧ (noise = none → u.1 = f x.2 x.1) ∧
    (∀ s, noise = some s → ∃ w, s.input k (g.inputCov x.2) = .ok w ∧ u.1 = g.uplus (f x.2 x.1) w) := by
  obtain ⟨t0, ts, ys, R, _, hg, hr, hl, rfl⟩ := datagen_ok h
  obtain ⟨a1, a2, _⟩ := loop_struct hl
  obtain ⟨b1, b2, b3⟩ := loop_flow hfl hl
  simp only [states_unsorted hf hg a1] at hx
  have key : ∀ (i : ℕ) (z : V × ℝ) (o : U × ℝ), ((x0, t0) :: R.1)[i]? = some z → R.2.1[i]? = some o →
      o.2 = z.2 ∧ (noise = none → o.1 = f z.2 z.1) ∧
      (∀ s, noise = some s → ∃ w, s.input i (g.inputCov z.2) = .ok w ∧ o.1 = g.uplus (f z.2 z.1) w) := by
    intro i z o hz ho
    have := b2 i z o hz ho
    rw [Nat.zero_add] at this
    unfold DataGen.inputAt at this
    rw [hraw] at this
    simp only [DataGen.inputOut, InputVal.toInput] at this
    cases noise with
    | none => cases this; exact ⟨rfl, fun _ => rfl, fun s hs => by cases hs⟩
    | some s =>
      obtain ⟨w, h1, h2⟩ := bind_ok this
      cases h2
      exact ⟨rfl, (fun hs => by cases hs), fun s' hs => by cases hs; exact ⟨w, h1, rfl⟩⟩
  have hsort : sortByStamp Prod.snd R.2.1 = R.2.1 := by
    apply sortByStamp_of_sorted
    unfold TimeSorted
    have hall := grid_sorted (a := start) (b := stop) hf
    rw [hg, ← a1] at hall
    have hall : (((x0, t0) :: R.1).map Prod.snd).Pairwise (· ≤ ·) := hall
    rw [List.pairwise_map] at hall
    rw [List.pairwise_iff_getElem] at hall ⊢
    have hR : R.1.length = ts.length := by rw [← a1]; simp
    intro i j hi hj hij
    have hi' : i < ((x0, t0) :: R.1).length := by simp; omega
    have hj' : j < ((x0, t0) :: R.1).length := by simp; omega
    rw [(key i _ _ (List.getElem?_eq_getElem hi') (List.getElem?_eq_getElem hi)).1,
      (key j _ _ (List.getElem?_eq_getElem hj') (List.getElem?_eq_getElem hj)).1]
    exact hall i j hi' hj' hij
  simp only [hsort] at hu
  exact key k x u hx hu

/-- Specification: what the generator was asked for: for each model, its stamps `t0 + offset + i / freq` before `tN`,
rounded to 12 decimals. -/
noncomputable def requestSpec (g : DataGen V U n nu) (t0 tN : ℝ) : List ((m : ℕ) × MeasModel V n m × ℝ) :=
  g.info.flatMap fun r => (gridSpec (t0 + r.offset) tN r.freq).map fun s => ⟨r.m, r.model, s⟩

/-- Forget the value. -/
def GenMeas.tag (y : GenMeas V n) : (m : ℕ) × MeasModel V n m × ℝ := ⟨y.m, y.model, y.stamp⟩

theorem reqMeas_ok {t0 tN : ℝ} {r : MeasReq V n} {l : List (GenMeas V n)} (h : reqMeas t0 tN r = .ok l) :
    r.freq ≠ 0 ∧ l = (gridSpec (t0 + r.offset) tN r.freq).map fun s => ⟨r.m, r.model, s, none⟩ := by
  unfold reqMeas at h
  obtain ⟨st, h1, h⟩ := bind_ok h
  cases h
  obtain ⟨a, b⟩ := stampGrid_ok h1
  refine ⟨a, ?_⟩
  rw [b]
  rfl

theorem requested_ok {g : DataGen V U n nu} {t0 tN : ℝ} {ys : List (GenMeas V n)} (h : g.requested t0 tN = .ok ys) :
    TimeSorted GenMeas.stamp ys ∧ (ys.map GenMeas.tag).Perm (requestSpec g t0 tN) ∧ (∀ y ∈ ys, y.value = none) ∧
    (∀ r ∈ g.info, r.freq ≠ 0) := by
  unfold DataGen.requested at h
  obtain ⟨l, h1, h⟩ := bind_ok h
  cases h
  have hl : ∀ (info : List (MeasReq V n)) (l : List (List (GenMeas V n))), info.mapM (reqMeas t0 tN) = .ok l →
      l.flatten.map GenMeas.tag = info.flatMap (fun r => (gridSpec (t0 + r.offset) tN r.freq).map
        fun s => (⟨r.m, r.model, s⟩ : (m : ℕ) × MeasModel V n m × ℝ)) ∧ (∀ y ∈ l.flatten, y.value = none) ∧
      (∀ r ∈ info, r.freq ≠ 0) := by
    intro info
    induction info with
    | nil => intro l h; rw [List.mapM_nil] at h; cases h; simp
    | cons r info ih =>
      intro l h
      rw [List.mapM_cons] at h
      obtain ⟨a, h1, h⟩ := bind_ok h
      obtain ⟨l', h2, h⟩ := bind_ok h
      cases h
      obtain ⟨e1, e2, e3⟩ := ih l' h2
      obtain ⟨f1, f2⟩ := reqMeas_ok h1
      refine ⟨?_, ?_, ?_⟩
      · rw [List.flatten_cons, List.map_append, e1, List.flatMap_cons, f2, List.map_map]
        rfl
      · intro y hy
        rw [List.flatten_cons, List.mem_append] at hy
        rcases hy with hy | hy
        · rw [f2] at hy
          obtain ⟨s, _, rfl⟩ := List.mem_map.1 hy
          rfl
        · exact e2 y hy
      · intro q hq
        rcases List.mem_cons.1 hq with rfl | hq
        · exact f1
        · exact e3 q hq
  obtain ⟨e1, e2, e3⟩ := hl _ _ h1
  refine ⟨sortByStamp_sorted _ _, ?_, ?_, e3⟩
  · unfold requestSpec
    rw [← e1]
    exact (sortByStamp_perm GenMeas.stamp l.flatten).map _
  · intro y hy
    exact e2 y ((sortByStamp_mem _).1 hy)

/-- The measurements come out in the order of the sorted requests. -/
theorem meas_get {g : DataGen V U n nu} {noise : Option (NoiseSrc nu)} {ts : List ℝ} {t : ℝ} {k j : ℕ} {v : V}
    {ys : List (GenMeas V n)} {R : List (V × ℝ) × List (U × ℝ) × List (GenMeas V n) × List (GenMeas V n)}
    (h : g.loop noise ts t k (v, t) ys j = .ok R) :
    (R.2.2.1 ++ R.2.2.2).map GenMeas.tag = ys.map GenMeas.tag ∧
    (∀ (i : ℕ) (d : GenMeas V n), (R.2.2.1 ++ R.2.2.2)[i]? = some d → i < R.2.2.1.length ∧ R.2.2.1[i]? = some d ∨
      R.2.2.1.length ≤ i ∧ ys[i]? = some d) := by
  obtain ⟨_, _, a3, a4, a5, _⟩ := loop_struct h
  have h2 : (∀ (i : ℕ) (d : GenMeas V n), (R.2.2.1 ++ R.2.2.2)[i]? = some d → i < R.2.2.1.length ∧ R.2.2.1[i]? = some d ∨
      R.2.2.1.length ≤ i ∧ ys[i]? = some d) := by
    intro i d hd
    by_cases hi : i < R.2.2.1.length
    · rw [List.getElem?_append_left hi] at hd
      exact Or.inl ⟨hi, hd⟩
    · rw [List.getElem?_append_right (not_lt.1 hi), a3, List.getElem?_drop] at hd
      refine Or.inr ⟨not_lt.1 hi, ?_⟩
      rw [← hd]
      congr 1
      omega
  refine ⟨?_, h2⟩
  have hlen : (R.2.2.1 ++ R.2.2.2).length = ys.length := by
    rw [List.length_append, a3, List.length_drop]
    omega
  apply List.ext_getElem?
  intro i
  simp only [List.getElem?_map]
  by_cases hi : i < ys.length
  · have e := List.getElem?_eq_getElem (show i < (R.2.2.1 ++ R.2.2.2).length by omega)
    rw [e]
    rcases h2 i _ e with ⟨h3, h4⟩ | ⟨h3, h4⟩
    · obtain ⟨y, w, c1, c2, _⟩ := a5 i _ h4
      rw [c1, c2]
      rfl
    · rw [h4]
  · rw [List.getElem?_eq_none (by omega), List.getElem?_eq_none (by omega)]

theorem sorted_of_tags {l l' : List (GenMeas V n)} (h : l.map GenMeas.tag = l'.map GenMeas.tag)
    (hs : TimeSorted GenMeas.stamp l') : TimeSorted GenMeas.stamp l := by
  have e : l.map GenMeas.stamp = l'.map GenMeas.stamp := by
    have := congrArg (List.map fun p : (m : ℕ) × MeasModel V n m × ℝ => p.2.2) h
    simpa [List.map_map, Function.comp_def, GenMeas.tag] using this
  unfold TimeSorted at *
  rw [← List.pairwise_map (R := (· ≤ ·))] at hs ⊢
  rw [e]
  exact hs

/-- The last sample time. -/
theorem states_last {t0 : ℝ} {ts : List ℝ} {x0 : V} {xs : List (V × ℝ)} (h : xs.map Prod.snd = ts) :
    (((x0, t0) :: xs).map Prod.snd).getLast? = some (ts.getLast?.getD t0) := by
  rw [List.map_cons, h, List.getLast?_cons]

/-- **C57, completeness.** For any process model: the generated measurements are exactly the requested ones (each model at
each of its stamps `t0 + offset + i / freq` before the last sample time `tN`, with multiplicity) and are sorted by stamp. -/
theorem C57_complete {g : DataGen V U n nu} (hf : 0 < g.inputFreq) {x0 : V} {start stop : ℝ} {noise : Option (NoiseSrc nu)}
    {D : GenData V U n} (h : g.generate x0 start stop noise = .ok D) :
    ∃ t0 tN, (D.states.map Prod.snd).head? = some t0 ∧ (D.states.map Prod.snd).getLast? = some tN ∧
      (D.meas.map GenMeas.tag).Perm (requestSpec g t0 tN) ∧ D.meas.Pairwise fun a b => a.stamp ≤ b.stamp := by
  obtain ⟨t0, ts, ys, R, _, hg, hr, hl, rfl⟩ := datagen_ok h
  obtain ⟨a1, a2, _⟩ := loop_struct hl
  obtain ⟨r1, r2, r3, r4⟩ := requested_ok hr
  refine ⟨t0, ts.getLast?.getD t0, ?_, ?_, ?_, sortByStamp_sorted _ _⟩
  · simp only [states_unsorted hf hg a1]
    rfl
  · simp only [states_unsorted hf hg a1]
    exact states_last a1
  · refine ((sortByStamp_perm GenMeas.stamp _).map _).trans ?_
    rw [(meas_get hl).1]
    exact r2

theorem measureState_ok {m : ℕ} {model : MeasModel V n m} {x : St V} {noise : Option (Mat m m → Except Err (Vec m))}
    {w : Vec m} (h : measureState model x noise = .ok w) :
    ∃ y, model.evaluate x = some y ∧ (noise = none → w = y) ∧
      ∀ f, noise = some f → ∃ e, f (model.covariance x) = .ok e ∧ w = y + e := by
  unfold measureState at h
  cases hy : model.evaluate x with
  | none => rw [hy] at h; cases h
  | some y =>
    rw [hy] at h
    cases noise with
    | none => cases h; exact ⟨_, rfl, fun _ => rfl, fun f hf => by cases hf⟩
    | some f =>
      obtain ⟨e, h1, h⟩ := bind_ok h
      cases h
      exact ⟨_, rfl, (fun hf => by cases hf), fun f' hf => by cases hf; exact ⟨e, h1, rfl⟩⟩

/-- **C57, values.** For a process model with the flow property and at least two sample times: every generated measurement
stamped before the last sample time carries its model evaluated at the true state of exactly its stamp — reached from the
last sample at or before the stamp (from the first sample for stamps that precede it) with the noiseless input of that
interval —, plus its own draw when noise is requested; a measurement that is not stamped before the last sample time has
no value. -/
theorem C57_values {g : DataGen V U n nu} (hf : 0 < g.inputFreq) (hfl : IsFlow g.proc) {x0 : V} {start stop : ℝ}
    {noise : Option (NoiseSrc nu)} {D : GenData V U n} (h : g.generate x0 start stop noise = .ok D)
    (h2 : 2 ≤ D.states.length) (tN : ℝ) (hN : (D.states.map Prod.snd).getLast? = some tN)
    (i : ℕ) (d : GenMeas V n) (hd : D.meas[i]? = some d) :
    (d.stamp < tN → ∃ (k : ℕ) (x x' : V × ℝ) (y : Vec d.m), D.states[k]? = some x ∧ D.states[k + 1]? = some x' ∧
      (k = 0 ∨ x.2 ≤ d.stamp) ∧ d.stamp < x'.2 ∧
      d.model.evaluate ⟨truthAt g x d.stamp, some d.stamp⟩ = some y ∧
      (noise = none → d.value = some y) ∧
      ∀ s, noise = some s → ∃ w, s.meas i d.m (d.model.covariance ⟨truthAt g x d.stamp, some d.stamp⟩) = .ok w ∧
        d.value = some (y + w)) ∧
    (tN ≤ d.stamp → d.value = none) := by
  obtain ⟨t0, ts, ys, R, _, hg, hr, hl, rfl⟩ := datagen_ok h
  obtain ⟨a1, a2, a3, a4, a5, a6⟩ := loop_struct hl
  obtain ⟨r1, r2, r3, r4⟩ := requested_ok hr
  obtain ⟨b1, b2, b3⟩ := loop_flow hfl hl
  simp only [states_unsorted hf hg a1] at h2 hN ⊢
  rw [sortByStamp_of_sorted _ _ (sorted_of_tags (meas_get hl).1 r1)] at hd
  have hlast : ts.getLast? = some tN := by
    rw [states_last a1] at hN
    cases hts : ts with
    | nil =>
      rw [hts] at a1
      simp only [List.map_eq_nil_iff] at a1
      simp [a1] at h2
    | cons a l =>
      rw [hts] at hN
      rw [List.getLast?_cons] at hN ⊢
      simpa using hN
  have hsort : ∀ s ∈ ts, s ≤ tN := by
    have hall := grid_sorted (a := start) (b := stop) hf
    rw [hg, List.pairwise_cons] at hall
    intro s hs
    obtain ⟨l, hl'⟩ := List.getLast?_eq_some_iff.1 hlast
    rw [hl', List.pairwise_append] at hall
    rw [hl', List.mem_append] at hs
    rcases hs with hs | hs
    · exact hall.2.2.2 s hs tN (by simp)
    · simp only [List.mem_singleton] at hs
      exact hs.le
  rcases (meas_get hl).2 i d hd with ⟨h3, h4⟩ | ⟨h3, h4⟩
  · obtain ⟨y, w, q, x, x', c1, c2, c3, c4, c5, c6, c7⟩ := b3 r1 i d h4
    subst c2
    rw [Nat.zero_add] at c7
    obtain ⟨z, m1, m2, m3⟩ := measureState_ok c7
    refine ⟨?_, ?_⟩
    · intro _
      refine ⟨q, x, x', z, c3, by simpa using c4, c5, c6, m1, ?_, ?_⟩
      · intro hn
        rw [hn] at m2
        exact congrArg some (m2 rfl)
      · intro s hs
        rw [hs] at m3
        obtain ⟨e, e1, e2⟩ := m3 _ rfl
        exact ⟨e, e1, congrArg some e2⟩
    · intro hle
      obtain ⟨y', w', g1, g2, s, g3, g4⟩ := a5 i _ h4
      exfalso
      rw [c1] at g1
      cases g1
      have := hsort s g3
      exact absurd (lt_of_lt_of_le g4 this) (not_lt.2 hle)
  · have hm : d ∈ R.2.2.2 := by
      rw [a3]
      refine List.mem_of_getElem? (i := i - R.2.2.1.length) ?_
      rw [List.getElem?_drop, ← h4]
      congr 1
      omega
    have hle := a6 r1 tN hlast d hm
    refine ⟨fun hlt => absurd hlt (not_lt.2 hle), fun _ => r3 d (List.mem_of_getElem? h4)⟩

/-- A measurement is requested strictly before the last sample time, up to rounding: a stamp can only reach the last sample
time, never exceed it. -/
theorem C57_stamps_le {g : DataGen V U n nu} (hf : 0 < g.inputFreq) (hpos : ∀ r ∈ g.info, 0 < r.freq) {x0 : V}
    {start stop : ℝ} {noise : Option (NoiseSrc nu)} {D : GenData V U n} (h : g.generate x0 start stop noise = .ok D)
    (tN : ℝ) (hN : (D.states.map Prod.snd).getLast? = some tN) (d : GenMeas V n) (hd : d ∈ D.meas) : d.stamp ≤ tN := by
  obtain ⟨t0, tN', e1, e2, e3, e4⟩ := C57_complete hf h
  rw [hN] at e2
  cases e2
  have hm : d.tag ∈ D.meas.map GenMeas.tag := List.mem_map_of_mem hd
  rw [e3.mem_iff] at hm
  unfold requestSpec at hm
  obtain ⟨r, hr, hm⟩ := List.mem_flatMap.1 hm
  obtain ⟨s, hs, hsd⟩ := List.mem_map.1 hm
  have hds : d.stamp = s := by
    have := congrArg (fun p : (m : ℕ) × MeasModel V n m × ℝ => p.2.2) hsd
    exact this.symm
  rw [hds]
  unfold gridSpec at hs
  obtain ⟨i, hi, rfl⟩ := List.mem_map.1 hs
  rw [List.mem_range, Nat.lt_ceil] at hi
  have hrf := hpos r hr
  have hlt : t0 + r.offset + i / r.freq ≤ tN := by
    have : (i : ℝ) / r.freq < tN - (t0 + r.offset) := by rw [div_lt_iff₀ hrf]; exact hi
    linarith
  have hr12 : round12 tN = tN := by
    obtain ⟨c1, _⟩ := C56_stamps hf h
    rw [c1] at hN
    obtain ⟨l, hl⟩ := List.getLast?_eq_some_iff.1 hN
    have : tN ∈ gridSpec start stop g.inputFreq := by rw [hl]; simp
    unfold gridSpec at this
    obtain ⟨i, _, rfl⟩ := List.mem_map.1 this
    exact round12_idem _
  rw [← hr12]
  exact round12_mono hlt

theorem fill_total {g : DataGen V U n nu} (tn : ℝ) (u : U × ℝ) :
    ∀ (ys : List (GenMeas V n)) (j : ℕ) (x : V × ℝ),
    (∃ r, g.fill none tn u ys j x = .ok r) ∨ g.fill none tn u ys j x = .error .attributeError
  | [], j, x => Or.inl ⟨_, rfl⟩
  | y :: ys, j, x => by
    by_cases hd : y.stamp < tn
    · simp only [DataGen.fill]
      rw [if_pos hd]
      simp only [Option.map_none, measureState]
      cases y.model.evaluate ⟨(g.move x u y.stamp).1, some (g.move x u y.stamp).2⟩ with
      | none => exact Or.inr rfl
      | some v =>
        simp only [ok_bindE]
        rcases fill_total tn u ys (j + 1) (g.move x u y.stamp) with ⟨r, h⟩ | h
        · rw [h]; exact Or.inl ⟨_, rfl⟩
        · rw [h]; exact Or.inr rfl
    · exact Or.inl ⟨_, fill_cons_wait hd⟩

theorem loop_total {g : DataGen V U n nu} :
    ∀ (ts : List ℝ) (t : ℝ) (k j : ℕ) (x : V × ℝ) (ys : List (GenMeas V n)),
    (∃ r, g.loop none ts t k x ys j = .ok r) ∨ g.loop none ts t k x ys j = .error .attributeError
  | [], t, k, j, x, ys => Or.inl ⟨_, rfl⟩
  | tn :: ts, t, k, j, x, ys => by
    simp only [DataGen.loop]
    rcases fill_total tn ((g.inputFunc t x.1).toInput t) ys j x with ⟨r, h⟩ | h
    · rw [h]
      simp only [ok_bindE, DataGen.inputOut]
      rcases loop_total ts tn (k + 1) (j + r.2.1.length) (g.move r.1 ((g.inputFunc t x.1).toInput t) tn) r.2.2 with
        ⟨R, h'⟩ | h'
      · rw [h']; exact Or.inl ⟨_, rfl⟩
      · rw [h']; exact Or.inr rfl
    · rw [h]; exact Or.inr rfl

/-- **C57, errors.** Without noise `generate` raises `ZeroDivisionError` when a frequency is zero (after finding that the grid
of sample times is not empty, for the measurement frequencies), `IndexError` when the grid of sample times is empty, and
otherwise either succeeds or raises `AttributeError`, the latter only because a measurement model returned `None`. -/
theorem C57_errors (g : DataGen V U n nu) (x0 : V) (start stop : ℝ) :
    (g.inputFreq = 0 → g.generate x0 start stop none = .error .zeroDivision) ∧
    (g.inputFreq ≠ 0 → gridSpec start stop g.inputFreq = [] → g.generate x0 start stop none = .error .indexError) ∧
    (g.inputFreq ≠ 0 → gridSpec start stop g.inputFreq ≠ [] → (∀ r ∈ g.info, r.freq ≠ 0) →
      (∃ D, g.generate x0 start stop none = .ok D) ∨ g.generate x0 start stop none = .error .attributeError) := by
  refine ⟨?_, ?_, ?_⟩
  · intro h
    unfold DataGen.generate stampGrid
    rw [if_pos h]
    rfl
  · intro h hg
    unfold DataGen.generate
    rw [stampGrid_eq h]
    unfold gridSpec at hg
    rw [hg]
    rfl
  · intro h hg hr
    unfold DataGen.generate
    rw [stampGrid_eq h]
    have hg' : ∃ t0 ts, (List.range ⌈(stop - start) * g.inputFreq⌉₊).map (fun i : ℕ => round12 (start + i / g.inputFreq))
        = t0 :: ts := List.exists_cons_of_ne_nil hg
    obtain ⟨t0, ts, e⟩ := hg'
    rw [e, ok_bindE]
    simp only
    have hreq : ∃ ys, g.requested t0 (ts.getLast?.getD t0) = .ok ys := by
      unfold DataGen.requested
      have : ∃ l, g.info.mapM (reqMeas t0 (ts.getLast?.getD t0)) = .ok l := by
        generalize g.info = info at hr
        induction info with
        | nil => exact ⟨[], rfl⟩
        | cons r info ih =>
          obtain ⟨l, hl⟩ := ih (fun q hq => hr q (List.mem_cons_of_mem _ hq))
          rw [List.mapM_cons]
          unfold reqMeas at hl ⊢
          rw [stampGrid_eq (hr r List.mem_cons_self), ok_bindE]
          simp only [pure_bind]
          rw [hl]
          exact ⟨_, rfl⟩
      obtain ⟨l, hl⟩ := this
      rw [hl]
      exact ⟨_, rfl⟩
    obtain ⟨ys, hy⟩ := hreq
    rw [hy, ok_bindE]
    rcases loop_total (g := g) ts t0 0 0 (x0, t0) ys with ⟨R, hR⟩ | hR
    · rw [hR]; exact Or.inl ⟨_, rfl⟩
    · rw [hR]; exact Or.inr rfl

/-- **C57, models that return `None`.** A model that reports "no measurement available" with `None` makes `generate` raise
`AttributeError` (it is not skipped) as soon as it is requested at a stamp before the last of at least two sample times. -/
theorem C57_none_raises (g : DataGen V U n nu) (hf : 0 < g.inputFreq) (hfl : IsFlow g.proc) (hr : ∀ r ∈ g.info, r.freq ≠ 0)
    (x0 : V) (start stop t0 t1 tN : ℝ) (ts : List ℝ) (hg : gridSpec start stop g.inputFreq = t0 :: t1 :: ts)
    (hN : (t1 :: ts).getLast? = some tN) (r : MeasReq V n) (hmem : r ∈ g.info) (hnone : ∀ x, r.model.evaluate x = none)
    (s : ℝ) (hs : s ∈ gridSpec (t0 + r.offset) tN r.freq) (hlt : s < tN) :
    g.generate x0 start stop none = .error .attributeError := by
  rcases (C57_errors g x0 start stop).2.2 hf.ne' (by rw [hg]; simp) hr with ⟨D, hD⟩ | h
  · exfalso
    obtain ⟨a1, _, _⟩ := C56_stamps hf hD
    obtain ⟨t0', tN', e1, e2, e3, e4⟩ := C57_complete hf hD
    have hN' : (D.states.map Prod.snd).getLast? = some tN := by rw [a1, hg, List.getLast?_cons_cons, hN]
    rw [hN'] at e2
    cases e2
    rw [a1, hg] at e1
    cases e1
    have h2 : 2 ≤ D.states.length := by
      have := congrArg List.length a1
      rw [hg, List.length_map] at this
      rw [this]
      simp
    have hreq : (⟨r.m, r.model, s⟩ : (m : ℕ) × MeasModel V n m × ℝ) ∈ requestSpec g t0 tN :=
      List.mem_flatMap.2 ⟨r, hmem, List.mem_map.2 ⟨s, hs, rfl⟩⟩
    rw [← e3.mem_iff] at hreq
    obtain ⟨d, hd, hdt⟩ := List.mem_map.1 hreq
    obtain ⟨i, hi⟩ := List.mem_iff_getElem?.1 hd
    have hv := (C57_values hf hfl hD h2 tN hN' i d hi).1
    obtain ⟨dm, dmod, dst, dval⟩ := d
    simp only [GenMeas.tag, Sigma.mk.injEq] at hdt
    obtain ⟨rfl, hdt⟩ := hdt
    simp only [heq_eq_eq, Prod.mk.injEq] at hdt
    obtain ⟨rfl, rfl⟩ := hdt
    obtain ⟨k, x, x', y, _, _, _, _, h5, _⟩ := hv hlt
    rw [hnone] at h5
    cases h5
  · exact h

/-! Witnesses. -/

theorem sort1 {α : Type} (f : α → ℝ) (a : α) : sortByStamp f [a] = [a] :=
  sortByStamp_of_sorted f [a] (by simp [TimeSorted])

theorem sort2 {α : Type} (f : α → ℝ) (a b : α) (h : f a ≤ f b) : sortByStamp f [a, b] = [a, b] :=
  sortByStamp_of_sorted f [a, b] (by simpa [TimeSorted] using h)

theorem round12_zero : round12 0 = 0 := round12_of_int 0 0 (by norm_num)

theorem round12_one : round12 1 = 1 := round12_of_int (10 ^ 12) 1 (by norm_num)

theorem round12_half : round12 (1 / 2) = 1 / 2 := round12_of_int 500000000000 (1 / 2) (by norm_num)

/-- Sample times 0 and 1. -/
theorem grid_two : gridSpec 0 2 1 = [0, 1] := by
  unfold gridSpec
  rw [show (⌈((2 : ℝ) - 0) * 1⌉₊) = 2 by norm_num [Nat.ceil_eq_iff]]
  simp [List.range_succ, round12_zero, round12_one]

/-- A scalar process model `x ↦ F x dt`, with a constant unit input, and no measurement model. -/
noncomputable def scalarGen (F : ℝ → ℝ → ℝ) (info : List (MeasReq ℝ 1)) : DataGen ℝ Unit 1 1 where
  proc := { evaluate := fun x _ dt => ⟨F x.value dt, x.stamp⟩, jacobian := fun _ _ _ => 1, covariance := fun _ _ _ => 0 }
  inputFunc := fun _ _ => .raw ()
  inputCov := fun _ => 1
  inputFreq := 1
  info := info
  uplus := fun u _ => u

/-- The measurement model `y = x`. -/
def idMeas : MeasModel ℝ 1 1 where
  evaluate := fun x => some fun _ => x.value
  jacobian := fun _ => 1
  covariance := fun _ => 1

theorem scalar_grid : stampGrid 0 2 (1 : ℝ) = .ok [0, 1] := by
  rw [stampGrid_eq one_ne_zero]
  exact congrArg _ grid_two

theorem scalar_no_meas (F : ℝ → ℝ → ℝ) (x0 : ℝ) :
    (scalarGen F []).generate x0 0 2 none = .ok ⟨[(x0, 0), (F x0 1, 1)], [((), 0)], []⟩ := by
  have h : (scalarGen F []).requested 0 1 = .ok [] := by
    unfold DataGen.requested
    simp only [scalarGen, List.mapM_nil, pure_bind]
    exact congrArg Except.ok (sortByStamp_of_sorted _ _ (by simp [TimeSorted]))
  unfold DataGen.generate
  rw [show (scalarGen F []).inputFreq = 1 from rfl, scalar_grid, ok_bindE]
  simp only [List.getLast?_singleton, Option.getD_some]
  rw [h, ok_bindE]
  simp only [DataGen.loop, DataGen.fill, DataGen.inputOut, ok_bindE, DataGen.move, InputVal.toInput, pure,
    Except.pure]
  simp only [scalarGen, sub_zero]
  rw [sort2 _ _ _ (by norm_num), sort1]
  simp [sortByStamp]

theorem scalar_requested (F : ℝ → ℝ → ℝ) (o : ℝ) (s : ℝ) (ho : 0 ≤ o) (h1 : o < 1) (hs : round12 o = s) :
    (scalarGen F [⟨1, idMeas, 1, o⟩]).requested 0 1 = .ok [⟨1, idMeas, s, none⟩] := by
  unfold DataGen.requested
  simp only [scalarGen, List.mapM_cons, List.mapM_nil, reqMeas]
  rw [stampGrid_eq one_ne_zero, show (⌈((1 : ℝ) - (0 + o)) * 1⌉₊) = 1 by
    rw [Nat.ceil_eq_iff one_ne_zero]; constructor <;> norm_num <;> linarith]
  simp only [ok_bindE, pure_bind, List.range_one, List.map_cons, List.map_nil]
  rw [show (0 : ℝ) + o + ((0 : ℕ) : ℝ) / 1 = o by simp, hs]
  exact congrArg Except.ok (sort1 _ _)

theorem scalar_meas (F : ℝ → ℝ → ℝ) (x0 o : ℝ) (ho : 0 ≤ o) (h1 : o < 1) (hs : round12 o = o) :
    (scalarGen F [⟨1, idMeas, 1, o⟩]).generate x0 0 2 none =
      .ok ⟨[(x0, 0), (F (F x0 o) (1 - o), 1)], [((), 0)], [⟨1, idMeas, o, some fun _ => F x0 o⟩]⟩ := by
  unfold DataGen.generate
  rw [show (scalarGen F [⟨1, idMeas, 1, o⟩]).inputFreq = 1 from rfl, scalar_grid, ok_bindE]
  simp only [List.getLast?_singleton, Option.getD_some]
  rw [scalar_requested F o o ho h1 hs, ok_bindE]
  simp only [DataGen.loop, DataGen.fill, gt_iff_lt, if_pos h1, DataGen.inputOut, ok_bindE, DataGen.move, InputVal.toInput,
    pure, Except.pure, measureState, Option.map_none]
  simp only [scalarGen, sub_zero, idMeas, ok_bindE]
  rw [sort2 _ _ _ (by norm_num), sort1]
  simp only [List.append_nil]
  rw [sort1]

/-- **C56, without the flow property the schedule matters.** For a process model that is not a flow (one Euler step
`x ↦ x + x dt`), adding a measurement between two samples changes the ground truth: 9/4 instead of 2 at the same time
from the same initial state with the same input. -/
theorem C56_euler_depends_on_schedule :
    (∃ D, (scalarGen (fun x dt => x + x * dt) []).generate 1 0 2 none = .ok D ∧ D.states = [(1, 0), (2, 1)]) ∧
    (∃ D, (scalarGen (fun x dt => x + x * dt) [⟨1, idMeas, 1, 1 / 2⟩]).generate 1 0 2 none = .ok D ∧
      D.states = [(1, 0), (9 / 4, 1)]) := by
  refine ⟨⟨_, scalar_no_meas _ _, ?_⟩, ⟨_, scalar_meas _ _ _ (by norm_num) (by norm_num) round12_half, ?_⟩⟩ <;> norm_num

/-- The integrator is a flow, and generating with a measurement between the samples succeeds: the hypotheses of `C56_truth`,
`C56_schedule_independent`, `C56_inputs` and `C57_values` are satisfiable with a filled measurement. -/
example : ∃ D, 0 < (scalarGen (fun x dt => x + dt) [⟨1, idMeas, 1, 1 / 2⟩]).inputFreq ∧
    IsFlow (scalarGen (fun x dt => x + dt) [⟨1, idMeas, 1, 1 / 2⟩]).proc ∧
    (scalarGen (fun x dt => x + dt) [⟨1, idMeas, 1, 1 / 2⟩]).generate 1 0 2 none = .ok D ∧ 2 ≤ D.states.length ∧
    ∃ d, D.meas[0]? = some d ∧ d.stamp < 1 := by
  refine ⟨_, by norm_num [scalarGen], ?_, scalar_meas _ _ _ (by norm_num) (by norm_num) round12_half, by simp, _, rfl, by norm_num⟩
  intro v u s a b
  simp only [scalarGen]
  ring

/-- **C57, a requested measurement can stay empty.** A stamp strictly before the last sample time that rounds to it is
requested but never filled: `generate` returns a measurement whose value is `None`. -/
theorem C57_rounding_leaves_none :
    ∃ D, (scalarGen (fun x dt => x + dt) [⟨1, idMeas, 1, 1 - 1 / 10 ^ 13⟩]).generate 1 0 2 none = .ok D ∧
      D.meas = [⟨1, idMeas, 1, none⟩] := by
  have hr : round12 (1 - 1 / 10 ^ 13) = 1 := by
    unfold round12 rint
    have hfl : ⌊((1 : ℝ) - 1 / 10 ^ 13) * 10 ^ 12⌋ = 999999999999 := by
      rw [Int.floor_eq_iff]; norm_num
    have hfr : Int.fract (((1 : ℝ) - 1 / 10 ^ 13) * 10 ^ 12) = 9 / 10 := by
      unfold Int.fract; rw [hfl]; norm_num
    rw [hfl, hfr, if_neg (by norm_num), if_pos (by norm_num)]
    norm_num
  have hreq := scalar_requested (fun x dt => x + dt) (1 - 1 / 10 ^ 13) 1 (by norm_num) (by norm_num) hr
  unfold DataGen.generate
  rw [show (scalarGen (fun x dt => x + dt) [⟨1, idMeas, 1, 1 - 1 / 10 ^ 13⟩]).inputFreq = 1 from rfl, scalar_grid, ok_bindE]
  simp only [List.getLast?_singleton, Option.getD_some]
  rw [hreq, ok_bindE]
  simp only [DataGen.loop, DataGen.fill, gt_iff_lt, lt_irrefl, if_false, DataGen.inputOut, ok_bindE, DataGen.move,
    InputVal.toInput, pure, Except.pure]
  refine ⟨_, rfl, ?_⟩
  simp only [List.nil_append]
  exact sort1 _ _

/-- **C57, lists of states.** `generate_measurement` for a list of states returns one measurement per state, in order, with
the state's stamp and (without noise) the model's value at that state. -/
theorem C57_list {m : ℕ} (model : MeasModel V n m) (xs : List (St V)) (r : List (Vec m × Option ℝ))
    (h : generateMeasurements model xs none = .ok r) :
    r.length = xs.length ∧ ∀ (i : ℕ) (x : St V) (y : Vec m × Option ℝ), xs[i]? = some x → r[i]? = some y →
      model.evaluate x = some y.1 ∧ y.2 = x.stamp := by
  unfold generateMeasurements at h
  obtain ⟨h1, h2⟩ := mapM_get h
  refine ⟨by simpa using h1, ?_⟩
  intro i x y hx hy
  obtain ⟨p, hp, hq⟩ := h2 i y hy
  obtain ⟨v, hv, hq⟩ := bind_ok hq
  cases hq
  have : p.1 = x := by
    rw [List.getElem?_zipIdx, hx] at hp
    simp only [Option.map_some, Option.some.injEq] at hp
    rw [← hp]
  rw [this] at hv ⊢
  obtain ⟨z, z1, z2, _⟩ := measureState_ok hv
  exact ⟨by rw [z1, z2 rfl], rfl⟩

/-! The constructor. -/

variable {M : Type}

/-- **C74, lists.** With one frequency and one offset per model, the generator holds every model with its own frequency and
its own offset. -/
theorem C74_lists (models : List M) (fs os : List ℝ) (hf : fs.length = models.length) (ho : os.length = models.length) :
    ∃ info, genInfo models (.list fs) (.list os) = .ok info ∧ info.length = models.length ∧
      ∀ (i : ℕ) (md : M) (f o : ℝ), models[i]? = some md → fs[i]? = some f → os[i]? = some o →
        info[i]? = some (md, f, o) := by
  have key : genInfo models (.list fs) (.list os) = .ok (models.zip (fs.zip os)) := by
    unfold genInfo
    simp only
    by_cases hk : models.length = 0
    · have hm : models = [] := List.length_eq_zero_iff.1 hk
      subst hm
      have : os = [] := List.length_eq_zero_iff.1 ho
      subst this
      rfl
    · have hos : os.length ≠ 0 := by omega
      simp only [OffsetArg.default, hk, and_false, if_false, OffsetArg.expand, FreqArg.expand, ok_bindE, ho, hf]
      by_cases h1 : models.length = 1
      · rw [if_pos h1, if_pos h1, h1]
        simp only [ok_bindE, List.replicate_one, List.flatten_cons, List.flatten_nil, List.append_nil]
        rfl
      · rw [if_neg h1, if_neg h1]
        rfl
  refine ⟨_, key, by simp [hf, ho], ?_⟩
  intro i md f o h1 h2 h3
  simp only [List.zip_eq_zipWith, List.getElem?_zipWith, h1, h2, h3]

/-- **C74, broadcasting.** A single frequency (a number or a list of one) and no offset, an empty list of offsets, or a list of
one offset, apply to every model. -/
theorem C74_broadcast (models : List M) (f o : ℝ) :
    (∀ fa ∈ [FreqArg.one f, FreqArg.list [f]],
      genInfo models fa .none = .ok (models.map fun md => (md, f, 0)) ∧
      genInfo models fa (.list []) = .ok (models.map fun md => (md, f, 0)) ∧
      genInfo models fa (.list [o]) = .ok (models.map fun md => (md, f, o))) := by
  have hzip : ∀ (l : List M) (a b : ℝ), l.zip ((List.replicate l.length a).zip (List.replicate l.length b)) =
      l.map fun md => (md, a, b) := by
    intro l a b
    induction l with
    | nil => rfl
    | cons x l ih =>
      simp only [List.length_cons, List.replicate_succ, List.zip_cons_cons, List.map_cons, ih]
  have hfl : ∀ (k : ℕ) (a : ℝ), (List.replicate k [a]).flatten = List.replicate k a := by
    intro k a
    induction k with
    | zero => rfl
    | succ k ih => rw [List.replicate_succ, List.flatten_cons, ih]; rfl
  have hexp : ∀ fa ∈ [FreqArg.one f, FreqArg.list [f]], fa.expand models.length = List.replicate models.length f := by
    intro fa hfa
    simp only [List.mem_cons, List.not_mem_nil, or_false] at hfa
    rcases hfa with rfl | rfl
    · rfl
    · simp only [FreqArg.expand, List.length_singleton, if_true, hfl]
  intro fa hfa
  have he := hexp fa hfa
  have hgen : ∀ oa, genInfo models fa oa = (do
      let o ← oa.default models.length
      let os ← o.expand models.length
      return models.zip ((fa.expand models.length).zip os)) := by
    intro oa
    simp only [List.mem_cons, List.not_mem_nil, or_false] at hfa
    rcases hfa with rfl | rfl <;> rfl
  rw [hgen, hgen, hgen, he]
  by_cases hk : models.length = 0
  · have hm : models = [] := List.length_eq_zero_iff.1 hk
    subst hm
    exact ⟨rfl, rfl, rfl⟩
  · refine ⟨?_, ?_, ?_⟩
    · simp only [OffsetArg.default, if_neg hk, List.length_nil, if_true, OffsetArg.expand, List.length_singleton, ok_bindE, hfl]
      rw [hzip]; rfl
    · simp only [OffsetArg.default, hk, ne_eq, not_false_iff, and_self, List.length_nil, if_true, OffsetArg.expand,
        List.length_singleton, ok_bindE, hfl]
      rw [hzip]; rfl
    · simp only [OffsetArg.default, OffsetArg.expand, List.length_singleton, ok_bindE, one_ne_zero, and_false, if_false,
        if_true, hfl]
      rw [hzip]; rfl

/-- **C74, errors.** With at least one model: no frequency is a `ValueError`; a list of offsets whose length is neither 0, 1 nor
the number of models is a `ValueError`; and a single offset given as a float — which the documentation allows — is a
`TypeError`. -/
theorem C74_errors (models : List M) (hm : models ≠ []) (fa : FreqArg) :
    (∀ oa, genInfo models .none oa = .error .valueError) ∧
    (fa ≠ .none → ∀ os : List ℝ, os.length ≠ 0 → os.length ≠ 1 → os.length ≠ models.length →
      genInfo models fa (.list os) = .error .valueError) ∧
    (fa ≠ .none → ∀ o, genInfo models fa (.float o) = .error .typeError) := by
  obtain ⟨a, l, rfl⟩ := List.exists_cons_of_ne_nil hm
  have hgen : fa ≠ .none → ∀ oa, genInfo (a :: l) fa oa = (do
      let o ← oa.default (a :: l).length
      let os ← o.expand (a :: l).length
      return (a :: l).zip ((fa.expand (a :: l).length).zip os)) := by
    intro hfa oa
    cases fa with
    | none => exact absurd rfl hfa
    | one f => rfl
    | list f => rfl
  refine ⟨fun oa => rfl, ?_, ?_⟩
  · intro hfa os h0 h1 hk
    rw [hgen hfa]
    simp only [OffsetArg.default, h0, and_false, if_false, OffsetArg.expand, if_neg h1, ok_bindE]
    rw [if_neg hk]
    rfl
  · intro hfa o
    rw [hgen hfa]
    rfl

/-- **C74, short lists of frequencies.** A list of frequencies that is neither of length one nor as long as the list of models
is accepted, and the models without a frequency are silently dropped. -/
theorem C74_short_freq_drops (models : List M) (fs : List ℝ) (h1 : fs.length ≠ 1) (hlt : fs.length < models.length) :
    ∃ info, genInfo models (.list fs) .none = .ok info ∧ info.map Prod.fst = models.take fs.length := by
  have hk : models.length ≠ 0 := by omega
  have hfl : ∀ (k : ℕ) (a : ℝ), (List.replicate k [a]).flatten = List.replicate k a := by
    intro k a
    induction k with
    | zero => rfl
    | succ k ih => rw [List.replicate_succ, List.flatten_cons, ih]; rfl
  refine ⟨models.zip (fs.zip (List.replicate models.length 0)), ?_, ?_⟩
  · unfold genInfo
    simp only [OffsetArg.default, if_neg hk, List.length_nil, if_true, OffsetArg.expand, List.length_singleton, ok_bindE,
      FreqArg.expand, if_neg h1, hfl]
    rfl
  · have ht : ∀ (l : List M) (r : List (ℝ × ℝ)), (l.zip r).map Prod.fst = l.take r.length := by
      intro l
      induction l with
      | nil => intro r; simp
      | cons a l ih =>
        intro r
        cases r with
        | nil => simp
        | cons b r => simp [ih r]
    rw [ht]
    simp [hlt.le]

/-- **C74, the caller's list.** A list of one offset given to the constructor is changed in place into as many copies as there
are models; giving the same list object to a second generator with a different number (more than one) of models is then
refused although a list of one offset is documented to apply to all models. -/
theorem C74_offset_list_reused (models models' : List M) (o f : ℝ) (h : models.length ≠ 1) (h0 : models.length ≠ 0)
    (hne : models'.length ≠ models.length) (hm : models' ≠ []) :
    (∃ info, genInfo models (.one f) (.list [o]) = .ok info) ∧
    offsetListAfter models [o] = List.replicate models.length o ∧
    genInfo models' (.one f) (.list (offsetListAfter models [o])) = .error .valueError := by
  have hfl : ∀ (k : ℕ) (a : ℝ), (List.replicate k [a]).flatten = List.replicate k a := by
    intro k a
    induction k with
    | zero => rfl
    | succ k ih => rw [List.replicate_succ, List.flatten_cons, ih]; rfl
  have hafter : offsetListAfter models [o] = List.replicate models.length o := by
    unfold offsetListAfter
    rw [List.length_singleton, if_pos rfl, hfl]
  refine ⟨⟨_, ((C74_broadcast models f o) (.one f) (by simp)).2.2⟩, hafter, ?_⟩
  rw [hafter]
  exact (C74_errors models' hm (.one f)).2.1 (by simp) _ (by simpa using h0) (by simpa using h) (by simpa using hne.symm)

/-- Two generators sharing one offset list, with 2 and 3 models. -/
example : (["a", "b"] : List String).length ≠ 1 ∧ (["a", "b"] : List String).length ≠ 0 ∧
    (["a", "b", "c"] : List String).length ≠ (["a", "b"] : List String).length := by decide

/-- **C74, adding models.** `add_measurement_model` requests the new model in addition to all the others. -/
theorem C74_add (g : DataGen V U n nu) (r : MeasReq V n) (t0 tN : ℝ) :
    requestSpec (g.addModel r) t0 tN = requestSpec g t0 tN ++
      (gridSpec (t0 + r.offset) tN r.freq).map fun s => ⟨r.m, r.model, s⟩ := by
  simp [requestSpec, DataGen.addModel]

theorem rint_nearest (x : ℝ) : |(rint x : ℝ) - x| ≤ 1 / 2 ∧ (|(rint x : ℝ) - x| = 1 / 2 → Even (rint x)) := by
  have h0 := Int.fract_add_floor x
  have h1 := Int.fract_nonneg x
  have h2 := Int.fract_lt_one x
  unfold rint
  split_ifs with a b c
  · have e : |(⌊x⌋ : ℝ) - x| = Int.fract x := by
      rw [show (⌊x⌋ : ℝ) - x = -Int.fract x by linarith, abs_neg, abs_of_nonneg h1]
    rw [e]
    exact ⟨a.le, fun h => absurd h a.ne⟩
  · have e : |((⌊x⌋ + 1 : ℤ) : ℝ) - x| = 1 - Int.fract x := by
      push_cast
      rw [show (⌊x⌋ : ℝ) + 1 - x = 1 - Int.fract x by linarith, abs_of_nonneg (by linarith)]
    rw [e]
    exact ⟨by linarith, fun h => absurd h (by linarith)⟩
  · have e : |(⌊x⌋ : ℝ) - x| = Int.fract x := by
      rw [show (⌊x⌋ : ℝ) - x = -Int.fract x by linarith, abs_neg, abs_of_nonneg h1]
    rw [e]
    exact ⟨not_lt.1 b, fun _ => c⟩
  · have e : |((⌊x⌋ + 1 : ℤ) : ℝ) - x| = 1 - Int.fract x := by
      push_cast
      rw [show (⌊x⌋ : ℝ) + 1 - x = 1 - Int.fract x by linarith, abs_of_nonneg (by linarith)]
    rw [e]
    exact ⟨by linarith [not_lt.1 a], fun _ => (Int.not_even_iff_odd.1 c).add_one⟩

/-- **C56, rounding.** The stamps are rounded to the nearest multiple of `1e-12`; halfway between two of them, to the even one. -/
theorem C56_rounding (start stop f : ℝ) : ∀ s ∈ gridSpec start stop f, ∃ (k : ℕ) (z : ℤ), s = z / 10 ^ 12 ∧
    |s - (start + k / f)| ≤ 1 / 2 / 10 ^ 12 ∧ (|s - (start + k / f)| = 1 / 2 / 10 ^ 12 → Even z) := by
  intro s hs
  unfold gridSpec at hs
  obtain ⟨k, -, rfl⟩ := List.mem_map.1 hs
  refine ⟨k, ?_⟩
  generalize start + (k : ℝ) / f = x
  obtain ⟨h1, h2⟩ := rint_nearest (x * 10 ^ 12)
  have e : |round12 x - x| = |(rint (x * 10 ^ 12) : ℝ) - x * 10 ^ 12| / 10 ^ 12 := by
    have : round12 x - x = ((rint (x * 10 ^ 12) : ℝ) - x * 10 ^ 12) / 10 ^ 12 := by
      unfold round12
      field_simp
    rw [this, abs_div, abs_of_pos (by positivity : (0 : ℝ) < 10 ^ 12)]
  refine ⟨rint (x * 10 ^ 12), rfl, ?_, fun h => h2 ?_⟩
  · rw [e]
    exact div_le_div_of_nonneg_right h1 (by positivity)
  · rw [e] at h
    exact (div_left_inj' (by positivity)).1 h

/-- **C74, covariance of the inputs.** `input_covariance` may be a function of time, which is used as it is, or an array, which is used at all
times: with noise, every input is perturbed by a draw for that covariance. Anything else is refused. -/
theorem C74_covariance (g : DataGen V U n nu) (hf : 0 < g.inputFreq) (hfl : IsFlow g.proc) (arg : CovArg nu) :
    (arg = .other → arg.toFun = .error .valueError) ∧
    (arg.toFun = .ok g.inputCov → ∀ (x0 : V) (start stop : ℝ) (s : NoiseSrc nu) (D : GenData V U n),
      g.generate x0 start stop (some s) = .ok D → ∀ (f : ℝ → V → U), (∀ t v, g.inputFunc t v = .raw (f t v)) →
      ∀ (k : ℕ) (x : V × ℝ) (u : U × ℝ), D.states[k]? = some x → D.inputs[k]? = some u →
        (∀ Q, arg = .array Q → ∃ w, s.input k Q = .ok w ∧ u.1 = g.uplus (f x.2 x.1) w) ∧
        (∀ q, arg = .callable q → ∃ w, s.input k (q x.2) = .ok w ∧ u.1 = g.uplus (f x.2 x.1) w)) := by
  refine ⟨?_, ?_⟩
  · rintro rfl; rfl
  · intro ha x0 start stop s D h f hraw k x u hx hu
    obtain ⟨-, -, h3⟩ := C56_inputs hf hfl h f hraw k x u hx hu
    obtain ⟨w, h4, h5⟩ := h3 s rfl
    constructor
    · rintro Q rfl
      have hq : (fun _ : ℝ => Q) = g.inputCov := Except.ok.inj ha
      rw [← hq] at h4
      exact ⟨w, h4, h5⟩
    · rintro q rfl
      have hq : q = g.inputCov := Except.ok.inj ha
      rw [← hq] at h4
      exact ⟨w, h4, h5⟩

/-- Both kinds of argument are accepted. -/
example : (CovArg.array (1 : Mat 2 2)).toFun = .ok (fun _ => 1) ∧ (CovArg.callable fun t => t • (1 : Mat 2 2)).toFun = .ok (fun t => t • 1) :=
  ⟨rfl, rfl⟩

end Verif
