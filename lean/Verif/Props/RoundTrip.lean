import Verif.Props.NoiseFree

/-!
C99: data generated without noise, for any process model, are reproduced by the filters.
-/

set_option linter.unusedSectionVars false
set_option linter.unusedVariables false

namespace Verif

open Matrix

variable {V U : Type} {n nu : ℕ}

/-! ### Computations that lead to a result -/

/-- Every value of the computation has the property, and if `tot` the computation has a value. -/
def Leads {α : Type} (tot : Prop) (a : Except Err α) (Q : α → Prop) : Prop := (∀ z, a = .ok z → Q z) ∧ (tot → ∃ z, a = .ok z)

theorem Leads.bind {α β : Type} {tot : Prop} {a : Except Err α} {Q : α → Prop} {f : α → Except Err β} {Q' : β → Prop}
    (h : Leads tot a Q) (h' : ∀ z, Q z → Leads tot (f z) Q') : Leads tot (a >>= f) Q' := by
  cases a with
  | error e => exact ⟨fun z hz => (by cases hz), fun ht => (by obtain ⟨z, hz⟩ := h.2 ht; cases hz)⟩
  | ok z => exact h' z (h.1 z rfl)

theorem Leads.pure {α : Type} {tot : Prop} {z : α} {Q : α → Prop} (h : Q z) : Leads tot (Except.ok z : Except Err α) Q :=
  ⟨fun w hw => by cases hw; exact h, fun _ => ⟨z, rfl⟩⟩

theorem Leads.mono {α : Type} {tot : Prop} {a : Except Err α} {Q Q' : α → Prop} (h : Leads tot a Q) (hq : ∀ z, Q z → Q' z) :
    Leads tot a Q' := ⟨fun z hz => hq z (h.1 z hz), h.2⟩

theorem Leads.of_ok {α : Type} {tot : Prop} {a : Except Err α} {Q : α → Prop} {z : α} (h : a = .ok z) (hq : Q z) : Leads tot a Q := by
  rw [h]; exact .pure hq

/-- A filter follows the generator `g` step by step: `R x X` says that the estimate `X` is at the true state `x`. -/
structure Tracks (g : DataGen V U n nu) {X : Type} (f : FilterApi X (StInp U) (StMeas V n)) (tot : Prop)
    (okM : ∀ m, MeasModel V n m → Prop) (R : V × ℝ → X → Prop) : Prop where
  ist : ∀ u, f.istamp u = u.stamp
  yst : ∀ y, f.ystamp y = y.stamp
  xst : ∀ x X, R x X → f.xstamp X = some x.2
  pred : ∀ x X u t, R x X → x.2 ≤ t → Leads tot (f.predict X u (t - x.2)) (R (g.move x (u.value, u.stamp) t))
  corr : ∀ x X u (y : StMeas V n), R x X → okM y.meas.m y.meas.model → (y.stamp = x.2 ∨ y.stamp - x.2 > 1 / 10 ^ 11) →
    y.meas.model.evaluate ⟨(g.move x (u.value, u.stamp) y.stamp).1, some y.stamp⟩ = some y.meas.value →
    Leads tot (f.correct X y u) (R (g.move x (u.value, u.stamp) y.stamp))

theorem move_self {g : DataGen V U n nu} (hz : ∀ v u s, (g.proc.evaluate ⟨v, some s⟩ u 0).value = v) (x : V × ℝ) (u : U × ℝ) :
    g.move x u x.2 = x := by
  unfold DataGen.move
  rw [sub_self, hz]

theorem measureState_none {m : ℕ} {model : MeasModel V n m} {x : St V} {v : Vec m} (h : measureState model x none = .ok v) :
    model.evaluate x = some v := by
  unfold measureState at h
  split at h
  · cases h
  · rename_i y hy
    cases h
    exact hy

theorem fuseWhile_stop {X : Type} {f : FilterApi X (StInp U) (StMeas V n)} {u : StInp U} {tn : ℝ} {later : List (StMeas V n)}
    (h : ∀ y ∈ later, tn ≤ f.ystamp y) (X0 : X) : fuseWhile f u tn later X0 = .ok (X0, later) := by
  cases later with
  | nil => rfl
  | cons y ys =>
    unfold fuseWhile
    rw [if_neg (not_lt.mpr (h y (by simp)))]

/-- Where the inner loop of the generator leaves the state. -/
theorem fill_stamps {g : DataGen V U n nu} (hz : ∀ v u s, (g.proc.evaluate ⟨v, some s⟩ u 0).value = v)
    {noise : Option (NoiseSrc nu)} {u : U × ℝ} {tn : ℝ} :
    ∀ (ys : List (GenMeas V n)) (j : ℕ) (x : V × ℝ) (r : (V × ℝ) × List (GenMeas V n) × List (GenMeas V n)),
      g.fill noise tn u ys j x = .ok r → TimeSorted GenMeas.stamp ys → (∀ y ∈ ys, x.2 ≤ y.stamp) → x.2 < tn →
      x.2 ≤ r.1.2 ∧ r.1.2 < tn ∧ ((∀ y ∈ ys, ¬ (x.2 < y.stamp ∧ y.stamp < tn)) → r.1 = x)
  | [], j, x, r, h, hs, hy, ht => by
    cases h
    exact ⟨le_refl _, ht, fun _ => rfl⟩
  | y :: ys, j, x, r, h, hs, hy, ht => by
    by_cases hdue : y.stamp < tn
    · obtain ⟨v, r', h1, h2, rfl⟩ := fill_cons_due hdue h
      have k1 := hy y (by simp)
      obtain ⟨i1, i2, i3⟩ := fill_stamps hz ys (j + 1) (g.move x u y.stamp) r' h2 (List.pairwise_cons.mp hs).2
        (List.pairwise_cons.mp hs).1 hdue
      refine ⟨k1.trans i1, i2, fun hno => ?_⟩
      have hxy : y.stamp = x.2 := by
        by_contra hc'
        exact hno y (by simp) ⟨lt_of_le_of_ne k1 (Ne.symm hc'), hdue⟩
      have hm : g.move x u y.stamp = x := by rw [hxy]; exact move_self hz x _
      show r'.1 = x
      rw [i3 (fun z hz' hc' => hno z (by simp [hz']) ⟨by rw [hm] at hc'; exact hc'.1, hc'.2⟩), hm]
    · rw [fill_cons_wait hdue] at h
      cases h
      exact ⟨le_refl _, ht, fun _ => rfl⟩

/-- The measurements of one interval: the filter goes where the generator went. -/
theorem fill_tracks {g : DataGen V U n nu} {X : Type}
    {f : FilterApi X (StInp U) (StMeas V n)} {tot : Prop} {okM : ∀ m, MeasModel V n m → Prop} {R : V × ℝ → X → Prop}
    (T : Tracks g f tot okM R) {u : StInp U} {tn : ℝ} {later : List (StMeas V n)} (hl : ∀ y ∈ later, tn ≤ y.stamp) :
    ∀ (ys : List (GenMeas V n)) (j : ℕ) (x : V × ℝ) (r : (V × ℝ) × List (GenMeas V n) × List (GenMeas V n)) (X0 : X),
      g.fill none tn (u.value, u.stamp) ys j x = .ok r → R x X0 → TimeSorted GenMeas.stamp ys →
      (∀ y ∈ ys, x.2 ≤ y.stamp ∧ Distinguishable y.stamp x.2 ∧ okM y.m y.model) →
      (∀ y ∈ ys, ∀ z ∈ ys, Distinguishable y.stamp z.stamp) →
      Leads tot (fuseWhile f u tn (r.2.1.filterMap GenMeas.toMeas ++ later) X0) (fun q => q.2 = later ∧ R r.1 q.1)
  | [], j, x, r, X0, h, hR, hs, hy, hd => by
    cases h
    show Leads tot (fuseWhile f u tn later X0) _
    rw [fuseWhile_stop (fun y hy => by rw [T.yst]; exact hl y hy)]
    exact .pure ⟨rfl, hR⟩
  | y :: ys, j, x, r, X0, h, hR, hs, hy, hd => by
    by_cases hdue : y.stamp < tn
    · obtain ⟨v, r', h1, h2, rfl⟩ := fill_cons_due hdue h
      have h1' := measureState_none (by simpa using h1)
      obtain ⟨k1, k2, k3⟩ := hy y (by simp)
      have ih := fun X1 hX1 => fill_tracks T (u := u) hl ys (j + 1) (g.move x (u.value, u.stamp) y.stamp) r' X1 h2 hX1
        (List.pairwise_cons.mp hs).2
        (fun z hz' => ⟨(List.pairwise_cons.mp hs).1 z hz', hd z (by simp [hz']) y (by simp), (hy z (by simp [hz'])).2.2⟩)
        (fun a ha c hc => hd a (by simp [ha]) c (by simp [hc]))
      have hY : ∃ Y : StMeas V n, GenMeas.toMeas { y with value := some v } = some Y ∧ Y.stamp = y.stamp ∧
          okM Y.meas.m Y.meas.model ∧
          Y.meas.model.evaluate ⟨(g.move x (u.value, u.stamp) y.stamp).1, some y.stamp⟩ = some Y.meas.value :=
        ⟨⟨⟨y.m, v, some y.stamp, y.model⟩, y.stamp, rfl⟩, rfl, rfl, k3, h1'⟩
      obtain ⟨Y, y1, y2, y3, y4⟩ := hY
      have hc := T.corr x X0 u Y hR y3 (by rw [y2]; exact far k2 k1) (by rw [y2]; exact y4)
      rw [y2] at hc
      show Leads tot (fuseWhile f u tn (List.filterMap GenMeas.toMeas ({ y with value := some v } :: r'.2.1) ++ later) X0) _
      rw [List.filterMap_cons_some y1, List.cons_append]
      unfold fuseWhile
      rw [if_pos (by rw [T.yst, y2]; exact hdue)]
      exact hc.bind fun X1 hX1 => ih X1 hX1
    · rw [fill_cons_wait hdue] at h
      cases h
      show Leads tot (fuseWhile f u tn later X0) _
      rw [fuseWhile_stop (fun y hy => by rw [T.yst]; exact hl y hy)]
      exact .pure ⟨rfl, hR⟩

/-- The inputs the generator returns without noise. -/
theorem loop_inputs {g : DataGen V U n nu} (hst : ∀ t v, ((g.inputFunc t v).toInput t).2 = t) :
    ∀ (ts : List ℝ) (t : ℝ) (k j : ℕ) (v : V) (ys : List (GenMeas V n))
      (R : List (V × ℝ) × List (U × ℝ) × List (GenMeas V n) × List (GenMeas V n)),
      g.loop none ts t k (v, t) ys j = .ok R → R.2.1.map Prod.snd = (t :: ts).dropLast ∧
        ∀ (i : ℕ) (x : V × ℝ) (o : U × ℝ), ((v, t) :: R.1)[i]? = some x → R.2.1[i]? = some o → o = g.inputAt x
  | [], t, k, j, v, ys, R, h => by cases h; simp
  | tn :: ts, t, k, j, v, ys, R, h => by
    obtain ⟨r, uo, R', h1, h2, h3, rfl⟩ := loop_cons h
    obtain ⟨i1, i2⟩ := loop_inputs hst ts tn (k + 1) _ _ _ R' h3
    cases h2
    refine ⟨?_, ?_⟩
    · show (g.inputAt (v, t)).2 :: R'.2.1.map Prod.snd = _
      rw [i1, show (g.inputAt (v, t)).2 = t from hst t v]
      simp
    · intro i x o hx ho
      cases i with
      | zero =>
        simp only [List.getElem?_cons_zero, Option.some.injEq] at hx ho
        rw [← hx, ← ho]
      | succ i =>
        simp only [List.getElem?_cons_succ] at hx ho
        exact i2 i x o hx ho

/-- What one result of the run has to do with the generated data: it is a state `p` on the way from the sample `x` to the next sample
`x'`, from which the input `u` of the interval leads to `x'`; it is the sample itself if no measurement lies strictly between. -/
def Between (g : DataGen V U n nu) (stamps : List ℝ) (x x' : V × ℝ) (u : U × ℝ) (p : V × ℝ) : Prop :=
  x.2 ≤ p.2 ∧ p.2 < x'.2 ∧ g.move p u x'.2 = x' ∧ ((∀ s ∈ stamps, ¬ (x.2 < s ∧ s < x'.2)) → p = x)

theorem loop_tracks {g : DataGen V U n nu} (hz : ∀ v u s, (g.proc.evaluate ⟨v, some s⟩ u 0).value = v)
    (hst : ∀ t v, ((g.inputFunc t v).toInput t).2 = t) {X : Type}
    {f : FilterApi X (StInp U) (StMeas V n)} {tot : Prop} {okM : ∀ m, MeasModel V n m → Prop} {R : V × ℝ → X → Prop}
    (T : Tracks g f tot okM R) :
    ∀ (ts : List ℝ) (t : ℝ) (k j : ℕ) (v : V) (ys : List (GenMeas V n))
      (L : List (V × ℝ) × List (U × ℝ) × List (GenMeas V n) × List (GenMeas V n)) (X0 : X),
      g.loop none ts t k (v, t) ys j = .ok L → (t :: ts).Pairwise (· < ·) → R (v, t) X0 → TimeSorted GenMeas.stamp ys →
      (∀ y ∈ ys, t ≤ y.stamp ∧ y.value = none ∧ okM y.m y.model ∧ ∀ s ∈ t :: ts, Distinguishable y.stamp s) →
      (∀ y ∈ ys, ∀ z ∈ ys, Distinguishable y.stamp z.stamp) →
      Leads tot (runLoop f (L.2.1.map fun u => (⟨u.1, u.2⟩ : StInp U)) ((L.2.2.1 ++ L.2.2.2).filterMap GenMeas.toMeas) X0)
        (fun rs => rs.length = L.2.1.length - 1 ∧ ∀ (i : ℕ) (Z : X) (u : U × ℝ) (x x' : V × ℝ), rs[i]? = some Z →
          L.2.1[i]? = some u → ((v, t) :: L.1)[i]? = some x → L.1[i]? = some x' →
          ∃ p, R p Z ∧ Between g (ys.map GenMeas.stamp) x x' u p)
  | [], t, k, j, v, ys, L, X0, h, hs, hR, hsort, hy, hd => by
    cases h
    exact .pure (by simp)
  | [tn], t, k, j, v, ys, L, X0, h, hs, hR, hsort, hy, hd => by
    obtain ⟨r, uo, R', h1, h2, h3, rfl⟩ := loop_cons h
    cases h3
    exact .pure (by simp)
  | tn :: t2 :: ts, t, k, j, v, ys, L, X0, h, hs, hR, hsort, hy, hd => by
    obtain ⟨r, uo, R', h1, h2, h3, rfl⟩ := loop_cons h
    cases h2
    have h3' : g.loop none (t2 :: ts) tn (k + 1) ((g.move r.1 (g.inputAt (v, t)) tn).1, tn) r.2.2 (j + r.2.1.length) = .ok R' := h3
    obtain ⟨a1, a2, a3, a4⟩ := fill_struct h1
    have htn : t < tn := (List.pairwise_cons.mp hs).1 tn (by simp)
    obtain ⟨f1, f2, f3⟩ := fill_stamps hz _ _ _ _ h1 hsort (fun y hy' => (hy y hy').1) htn
    have hmem : ∀ y ∈ r.2.2, y ∈ ys := fun y hy' => by rw [a1] at hy'; exact List.mem_of_mem_drop hy'
    have hsort' : TimeSorted GenMeas.stamp r.2.2 := by rw [a1]; exact hsort.sublist (List.drop_sublist _ _)
    -- the inputs
    obtain ⟨u', us, hus⟩ : ∃ u' us, R'.2.1 = u' :: us := by
      cases hR' : R'.2.1 with
      | nil => have := (loop_struct h3').2.1; rw [hR'] at this; simp at this
      | cons u' us => exact ⟨u', us, rfl⟩
    have hu' : u'.2 = tn := by
      have := (loop_inputs hst _ _ _ _ _ _ _ h3').1
      rw [hus] at this
      simp only [List.map_cons, List.dropLast_cons_cons, List.cons.injEq] at this
      exact this.1
    have hu0 : (g.inputAt (v, t)).2 = t := hst t v
    -- the measurements
    have hnone : ∀ y ∈ R'.2.2.2, y.toMeas = none := by
      intro y hy'
      have hst' := (loop_struct h3').2.2.1
      rw [hst'] at hy'
      have := (hy y (hmem y (List.mem_of_mem_drop hy'))).2.1
      unfold GenMeas.toMeas
      rw [this]
      rfl
    have hfm : R'.2.2.2.filterMap GenMeas.toMeas = [] := by
      rw [List.filterMap_eq_nil_iff]
      exact hnone
    have hlater : ∀ Y ∈ (R'.2.2.1 ++ R'.2.2.2).filterMap GenMeas.toMeas, tn ≤ Y.stamp := by
      intro Y hY
      rw [List.filterMap_append, hfm, List.append_nil] at hY
      obtain ⟨d, hd1, hd2⟩ := List.mem_filterMap.mp hY
      obtain ⟨i, hi, hdi⟩ := List.mem_iff_getElem.mp hd1
      obtain ⟨y, w, c1, c2, -⟩ := (loop_struct h3').2.2.2.2.1 i d (by rw [List.getElem?_eq_getElem hi, hdi])
      have hyd : d.stamp = y.stamp := by rw [c2]
      have hYd : Y.stamp = d.stamp := by
        unfold GenMeas.toMeas at hd2
        cases hv : d.value with
        | none => rw [hv] at hd2; cases hd2
        | some v => rw [hv] at hd2; cases hd2; rfl
      rw [hYd, hyd]
      exact a4 hsort y (List.mem_of_getElem? c1)
    have hfuse := fill_tracks T (u := ⟨(g.inputAt (v, t)).1, (g.inputAt (v, t)).2⟩) hlater ys j (v, t) r X0 h1 hR hsort
      (fun y hy' => ⟨(hy y hy').1, (hy y hy').2.2.2 t (by simp), (hy y hy').2.2.1⟩) hd
    have hlist : ((r.2.1 ++ R'.2.2.1) ++ R'.2.2.2).filterMap GenMeas.toMeas =
        r.2.1.filterMap GenMeas.toMeas ++ (R'.2.2.1 ++ R'.2.2.2).filterMap GenMeas.toMeas := by
      rw [List.append_assoc, List.filterMap_append]
    show Leads tot (runLoop f ((g.inputAt (v, t) :: R'.2.1).map fun u => (⟨u.1, u.2⟩ : StInp U))
      (((r.2.1 ++ R'.2.2.1) ++ R'.2.2.2).filterMap GenMeas.toMeas) X0) _
    rw [hlist, hus]
    simp only [List.map_cons]
    rw [show runLoop f (⟨(g.inputAt (v, t)).1, (g.inputAt (v, t)).2⟩ :: ⟨u'.1, u'.2⟩ :: us.map fun u => (⟨u.1, u.2⟩ : StInp U))
      (r.2.1.filterMap GenMeas.toMeas ++ (R'.2.2.1 ++ R'.2.2.2).filterMap GenMeas.toMeas) X0 =
        (fuseWhile f ⟨(g.inputAt (v, t)).1, (g.inputAt (v, t)).2⟩ (f.istamp ⟨u'.1, u'.2⟩)
          (r.2.1.filterMap GenMeas.toMeas ++ (R'.2.2.1 ++ R'.2.2.2).filterMap GenMeas.toMeas) X0 >>= fun q =>
          predictTo f q.1 ⟨(g.inputAt (v, t)).1, (g.inputAt (v, t)).2⟩ (f.istamp ⟨u'.1, u'.2⟩) >>= fun x2 =>
          runLoop f (⟨u'.1, u'.2⟩ :: us.map fun u => (⟨u.1, u.2⟩ : StInp U)) q.2 x2 >>= fun rs => pure (q.1 :: rs)) from rfl]
    rw [show f.istamp (⟨u'.1, u'.2⟩ : StInp U) = tn by rw [T.ist]; exact hu']
    refine hfuse.bind fun q hq => ?_
    obtain ⟨q1, q2⟩ := hq
    have hpred : Leads tot (predictTo f q.1 ⟨(g.inputAt (v, t)).1, (g.inputAt (v, t)).2⟩ tn)
        (R (g.move r.1 (g.inputAt (v, t)) tn)) := by
      unfold predictTo
      rw [T.xst _ _ q2]
      exact T.pred _ _ _ _ q2 f2.le
    refine hpred.bind fun X2 hX2 => ?_
    have ih := loop_tracks hz hst T (t2 :: ts) tn (k + 1) (j + r.2.1.length) (g.move r.1 (g.inputAt (v, t)) tn).1 r.2.2 R' X2 h3'
      (List.pairwise_cons.mp hs).2 hX2 hsort'
      (fun y hy' => ⟨a4 hsort y hy', (hy y (hmem y hy')).2.1, (hy y (hmem y hy')).2.2.1, fun s hs' =>
        (hy y (hmem y hy')).2.2.2 s (by simp only [List.mem_cons] at hs' ⊢; tauto)⟩)
      (fun y hy' z hz' => hd y (hmem y hy') z (hmem z hz'))
    rw [hus, List.map_cons] at ih
    rw [q1]
    refine ih.bind fun rs hrs => .pure ⟨?_, ?_⟩
    · have := hrs.1
      simp only [List.length_cons] at this ⊢
      omega
    · intro i Z u x x' e1 e2 e3 e4
      cases i with
      | zero =>
        simp only [List.getElem?_cons_zero, Option.some.injEq] at e1 e2 e3 e4
        subst e1 e2 e3 e4
        refine ⟨r.1, q2, f1, f2, rfl, fun hno => f3 fun y hy' => hno y.stamp (List.mem_map_of_mem hy')⟩
      | succ i =>
        simp only [List.getElem?_cons_succ] at e1 e2 e3 e4
        obtain ⟨p, p1, p2, p3, p4, p5⟩ := hrs.2 i Z u x x' e1 e2 e3 e4
        refine ⟨p, p1, p2, p3, p4, fun hno => p5 fun s hs' => ?_⟩
        obtain ⟨y, hy', rfl⟩ := List.mem_map.mp hs'
        exact hno y.stamp (List.mem_map_of_mem (hmem y hy'))

/-- The stamps of the requested measurements are not earlier than the first sample. -/
theorem requested_late {g : DataGen V U n nu} (hinfo : ∀ r ∈ g.info, 0 < r.freq ∧ 0 ≤ r.offset) {t0 tN : ℝ} (ht : round12 t0 = t0)
    {ys : List (GenMeas V n)} (h : g.requested t0 tN = .ok ys) : ∀ y ∈ ys, t0 ≤ y.stamp := by
  intro d hdm
  have : d.tag ∈ requestSpec g t0 tN := (requested_ok h).2.1.mem_iff.mp (List.mem_map_of_mem hdm)
  unfold requestSpec at this
  simp only [List.mem_flatMap, List.mem_map] at this
  obtain ⟨r, hr, s, hs1, hs2⟩ := this
  have hst : d.stamp = s := (congrArg (fun z => z.2.2) hs2).symm
  rw [hst]
  unfold gridSpec at hs1
  simp only [List.mem_map] at hs1
  obtain ⟨i, -, rfl⟩ := hs1
  calc t0 = round12 t0 := ht.symm
    _ ≤ _ := round12_mono (by
      have := (hinfo r hr).2
      have : (0 : ℝ) ≤ i / r.freq := div_nonneg (by positivity) (hinfo r hr).1.le
      linarith)

/-- A list that is sorted and not older than `t0` is used as it is. -/
theorem used_all {α : Type} {stamp : α → ℝ} {t0 : ℝ} {l : List α} (hs : TimeSorted stamp l) (h : ∀ a ∈ l, t0 ≤ stamp a) :
    dropBefore stamp t0 (sortByStamp stamp l) = l := by
  rw [dropBefore_fresh]
  · unfold retained
    rw [sortByStamp_of_sorted _ _ hs, List.filter_eq_self]
    intro a ha
    simpa using h a ha
  · cases l with
    | nil => exact .inl rfl
    | cons a l => exact .inr ⟨a, by simp, h a (by simp)⟩

/-- Generator and driver, for any filter that follows the generator step by step. -/
theorem generate_tracks {g : DataGen V U n nu} (hf : 0 < g.inputFreq) (hinfo : ∀ r ∈ g.info, 0 < r.freq ∧ 0 ≤ r.offset)
    (hz : ∀ v u s, (g.proc.evaluate ⟨v, some s⟩ u 0).value = v) (hst : ∀ t v, ((g.inputFunc t v).toInput t).2 = t)
    {x0 : V} {start stop : ℝ} {D : GenData V U n}
    (h : g.generate x0 start stop none = .ok D) (hs : (D.states.map Prod.snd).Pairwise (· < ·))
    (hd : ∀ d ∈ D.meas, ∀ s ∈ D.states.map Prod.snd ++ D.meas.map GenMeas.stamp, Distinguishable d.stamp s)
    {t0 : ℝ} (ht0 : (D.states.map Prod.snd).head? = some t0) {X : Type}
    {f : FilterApi X (StInp U) (StMeas V n)} {tot : Prop} {okM : ∀ m, MeasModel V n m → Prop} {R : V × ℝ → X → Prop}
    (T : Tracks g f tot okM R) (hM : ∀ d ∈ D.meas, okM d.m d.model) {X0 : X} (hX : R (x0, t0) X0) :
    Leads tot (runFilter f X0 D.inputLog D.measLog) (fun rs => rs.length = D.inputs.length - 1 ∧
      ∀ (i : ℕ) (Z : X) (u : U × ℝ) (x x' : V × ℝ), rs[i]? = some Z → D.inputs[i]? = some u → D.states[i]? = some x →
        D.states[i + 1]? = some x' → ∃ p, R p Z ∧ Between g (D.meas.map GenMeas.stamp) x x' u p) := by
  have hgrid := (C56_stamps hf h).1
  obtain ⟨t0', ts, ys, L, _, hg, hr, hl, rfl⟩ := datagen_ok h
  obtain ⟨a1, a2, a3, a4, a5, _⟩ := loop_struct hl
  have hstates : sortByStamp Prod.snd ((x0, t0') :: L.1) = (x0, t0') :: L.1 := states_unsorted hf hg a1
  simp only [hstates] at hs hd ht0 ⊢
  have ht : t0' = t0 := by simpa using ht0
  subst ht
  have hs' : (t0' :: ts).Pairwise (· < ·) := by
    have : ((x0, t0') :: L.1).map Prod.snd = t0' :: ts := by simp [a1]
    rwa [this] at hs
  obtain ⟨r1, r2, r3, -⟩ := requested_ok hr
  have hr12 : round12 t0' = t0' := by
    have : t0' ∈ gridSpec start stop g.inputFreq := by rw [hg]; simp
    unfold gridSpec at this
    simp only [List.mem_map] at this
    obtain ⟨j, -, hj⟩ := this
    rw [← hj]
    exact round12_idem _
  have hlate := requested_late hinfo hr12 hr
  -- the measurements are in order
  have htags := (meas_get hl).1
  have hstamps : (L.2.2.1 ++ L.2.2.2).map GenMeas.stamp = ys.map GenMeas.stamp := by
    have := congrArg (List.map fun z : (m : ℕ) × MeasModel V n m × ℝ => z.2.2) htags
    rw [List.map_map, List.map_map] at this
    exact this
  have hmsort : TimeSorted GenMeas.stamp (L.2.2.1 ++ L.2.2.2) := by
    have : (ys.map GenMeas.stamp).Pairwise (· ≤ ·) := by rw [List.pairwise_map]; exact r1
    rw [← hstamps, List.pairwise_map] at this
    exact this
  have hmeas : sortByStamp GenMeas.stamp (L.2.2.1 ++ L.2.2.2) = L.2.2.1 ++ L.2.2.2 := sortByStamp_of_sorted _ _ hmsort
  simp only [hmeas] at hd hM ⊢
  -- the inputs are in order
  obtain ⟨i1, i2⟩ := loop_inputs hst _ _ _ _ _ _ _ hl
  have hisort : TimeSorted Prod.snd L.2.1 := by
    have : (L.2.1.map Prod.snd).Pairwise (· ≤ ·) := by
      rw [i1]
      exact (hs'.imp fun h => le_of_lt h).sublist (List.dropLast_sublist _)
    rw [List.pairwise_map] at this
    exact this
  have hins : sortByStamp Prod.snd L.2.1 = L.2.1 := sortByStamp_of_sorted _ _ hisort
  simp only [hins]
  have hyl : ∀ y ∈ ys, ∃ d ∈ L.2.2.1 ++ L.2.2.2, d.stamp = y.stamp ∧ (okM d.m d.model → okM y.m y.model) := by
    intro y hy
    have : y.tag ∈ (L.2.2.1 ++ L.2.2.2).map GenMeas.tag := by rw [htags]; exact List.mem_map_of_mem hy
    obtain ⟨d, hd1, hd2⟩ := List.mem_map.mp this
    refine ⟨d, hd1, congrArg (fun z => z.2.2) hd2, fun ho => ?_⟩
    have key : ∀ a b : (m : ℕ) × MeasModel V n m × ℝ, a = b → okM a.1 a.2.1 → okM b.1 b.2.1 := by rintro a b rfl; exact id
    exact key d.tag y.tag hd2 ho
  have main := loop_tracks hz hst T ts t0' 0 0 x0 ys L X0 hl hs' hX r1
    (fun y hy => by
      obtain ⟨d, d1, d2, d3⟩ := hyl y hy
      refine ⟨hlate y hy, r3 y hy, d3 (hM d d1), fun s hs1 => ?_⟩
      rw [← d2]
      refine hd d d1 s ?_
      rw [List.mem_append]
      left
      simpa [a1] using hs1)
    (fun y hy z hz' => by
      obtain ⟨d, d1, d2, -⟩ := hyl y hy
      rw [← d2]
      refine hd d d1 _ ?_
      rw [List.mem_append, hstamps]
      exact .inr (List.mem_map_of_mem hz'))
  have hrun : runFilter f X0 (GenData.mk (n := n) ((x0, t0') :: L.1) L.2.1 (L.2.2.1 ++ L.2.2.2)).inputLog
      (GenData.mk (n := n) ((x0, t0') :: L.1) L.2.1 (L.2.2.1 ++ L.2.2.2)).measLog =
      runLoop f (L.2.1.map fun u => (⟨u.1, u.2⟩ : StInp U)) ((L.2.2.1 ++ L.2.2.2).filterMap GenMeas.toMeas) X0 := by
    unfold runFilter
    rw [T.xst _ _ hX]
    have e1 : f.istamp = StInp.stamp := funext T.ist
    have e2 : f.ystamp = StMeas.stamp := funext T.yst
    simp only [e1, e2]
    have k1 : TimeSorted StInp.stamp (L.2.1.map fun u => (⟨u.1, u.2⟩ : StInp U)) := by
      unfold TimeSorted
      rw [List.pairwise_map]
      exact hisort
    have k2 : ∀ a ∈ L.2.1.map fun u => (⟨u.1, u.2⟩ : StInp U), t0' ≤ a.stamp := by
      intro a ha
      obtain ⟨u, hu, rfl⟩ := List.mem_map.mp ha
      have : u.2 ∈ (t0' :: ts).dropLast := by rw [← i1]; exact List.mem_map_of_mem hu
      have := List.mem_of_mem_dropLast this
      rcases List.mem_cons.mp this with h | h
      · exact h.symm.le
      · exact ((List.pairwise_cons.mp hs').1 _ h).le
    have hto : ∀ (d : GenMeas V n) (Y : StMeas V n), d.toMeas = some Y → Y.stamp = d.stamp := by
      intro d Y hY
      unfold GenMeas.toMeas at hY
      cases hv : d.value with
      | none => rw [hv] at hY; cases hY
      | some v => rw [hv] at hY; cases hY; rfl
    have k3 : TimeSorted StMeas.stamp ((L.2.2.1 ++ L.2.2.2).filterMap GenMeas.toMeas) := by
      unfold TimeSorted
      rw [List.pairwise_filterMap]
      refine hmsort.imp ?_
      intro a b hab A hA B hB
      rw [hto a A hA, hto b B hB]
      exact hab
    have k4 : ∀ a ∈ (L.2.2.1 ++ L.2.2.2).filterMap GenMeas.toMeas, t0' ≤ a.stamp := by
      intro a ha
      obtain ⟨d, hd1, hd2⟩ := List.mem_filterMap.mp ha
      rw [hto d a hd2]
      have : d.stamp ∈ ys.map GenMeas.stamp := by rw [← hstamps]; exact List.mem_map_of_mem hd1
      obtain ⟨y, hy, hyd⟩ := List.mem_map.mp this
      rw [← hyd]
      exact hlate y hy
    show runLoop f (dropBefore StInp.stamp t0' (sortByStamp StInp.stamp (L.2.1.map fun u => (⟨u.1, u.2⟩ : StInp U))))
      (dropBefore StMeas.stamp t0' (sortByStamp StMeas.stamp ((L.2.2.1 ++ L.2.2.2).filterMap GenMeas.toMeas))) X0 = _
    rw [used_all k1 k2, used_all k3 k4]
  rw [hrun]
  refine main.mono fun rs hrs => ⟨hrs.1, fun i Z u x x' e1 e2 e3 e4 => ?_⟩
  rw [hstamps]
  exact hrs.2 i Z u x x' e1 e2 e3 (by simpa using e4)

/-! ### The filters -/

theorem ekf_tracks {g : DataGen V U n nu} (e : EkfEnv V U n) (he : e.proc = g.proc)
    (hz : ∀ v u s, (g.proc.evaluate ⟨v, some s⟩ u 0).value = v) (h0 : ∀ v, e.plus v 0 = v)
    (hQ : ∀ x u dt, 0 ≤ dt → (e.proc.covariance x u dt).PosSemidef) :
    Tracks g (ekfApi e) True (fun _ M => ∀ s, (M.covariance s).PosDef)
      (fun x X => X.state = ⟨x.1, some x.2⟩ ∧ X.cov.PosSemidef) := by
  have hpred : ∀ (x : V × ℝ) (X : SWC V n) (u : Inp U) (t : ℝ), X.state = ⟨x.1, some x.2⟩ → X.cov.PosSemidef → x.2 ≤ t →
      ∃ z, e.predict X (some u) (some (t - x.2)) none = .ok z ∧
        z.state = ⟨(g.proc.evaluate ⟨x.1, some x.2⟩ u (t - x.2)).value, some t⟩ ∧ z.cov.PosSemidef := by
    intro x X u t h1 h2 ht
    have hs : X.state.stamp = some x.2 := by rw [h1]
    have k := predict_some_some e X u x.2 (t - x.2) none hs (by linarith)
    refine ⟨_, k, ?_, predict_psd e hQ X _ _ _ _ h2 k⟩
    unfold EkfEnv.propagate
    simp only
    rw [h1, show x.2 + (t - x.2) = t by ring, he]
  refine ⟨fun _ => rfl, fun _ => rfl, fun x X h => by show X.state.stamp = _; rw [h.1], ?_, ?_⟩
  · rintro x X u t ⟨h1, h2⟩ ht
    obtain ⟨z, k1, k2, k3⟩ := hpred x X ⟨u.value, some u.stamp⟩ t h1 h2 ht
    exact .of_ok k1 ⟨k2, k3⟩
  · rintro x X u y ⟨h1, h2⟩ hR hy hv
    have hpf : Perfect (fun _ => (g.move x (u.value, u.stamp) y.stamp).1) y := .inl hv
    rcases hy with hy | hy
    · have hm : g.move x (u.value, u.stamp) y.stamp = x := by rw [hy]; exact move_self hz x _
      obtain ⟨z, k1, k2, k3⟩ := ekf_fuse_on h0 (W := fun _ => (g.move x (u.value, u.stamp) y.stamp).1) (y := y)
        (by rw [h1, hm, hy]) h2 hpf hR (some ⟨u.value, some u.stamp⟩)
      exact .of_ok k1 ⟨k2, k3⟩
    · have hp : (0 : ℝ) < 1 / 10 ^ 11 := by positivity
      obtain ⟨x1, k1, k2, k3⟩ := hpred x X ⟨u.value, some u.stamp⟩ y.stamp h1 h2 (by linarith)
      obtain ⟨z, k4, k5, k6⟩ := ekf_fuse_on h0 (W := fun _ => (g.move x (u.value, u.stamp) y.stamp).1) (y := y) k2 k3 hpf hR
        (none : Option (Inp U))
      refine .of_ok (z := z) ?_ ⟨k5, k6⟩
      show e.correct X y.meas (some ⟨u.value, some u.stamp⟩) none none = _
      rw [C02_correct_eq_predict_then_correct e X y.meas ⟨u.value, some u.stamp⟩ none none x.2 y.stamp (by rw [h1]) y.hstamp hy, k1]
      exact k4

theorem iekf_tracks {g : DataGen V U n nu} (f : IekfEnv V U n) (lsFuel : ℕ) (he : f.proc = g.proc)
    (hz : ∀ v u s, (g.proc.evaluate ⟨v, some s⟩ u 0).value = v) (h0 : ∀ v, f.plus v 0 = v) (hmm : ∀ v, f.minus v v = 0) :
    Tracks g (iekfApi f lsFuel) False (fun _ _ => True) (fun x X => X.state = ⟨x.1, some x.2⟩) := by
  have hpred : ∀ (x : V × ℝ) (X z : SWC V n) (u : Inp U) (t : ℝ), X.state = ⟨x.1, some x.2⟩ → x.2 ≤ t →
      f.predict X (some u) (some (t - x.2)) none = .ok z →
        z.state = ⟨(g.proc.evaluate ⟨x.1, some x.2⟩ u (t - x.2)).value, some t⟩ := by
    intro x X z u t h1 ht hz'
    rw [predict_some_some f.toEkfEnv X u x.2 (t - x.2) none (by rw [h1]) (by linarith)] at hz'
    cases hz'
    unfold EkfEnv.propagate
    simp only
    rw [h1, show x.2 + (t - x.2) = t by ring, he]
  refine ⟨fun _ => rfl, fun _ => rfl, fun x X h => by show X.state.stamp = _; rw [h], ?_, ?_⟩
  · intro x X u t h1 ht
    exact ⟨fun z hz' => hpred x X z ⟨u.value, some u.stamp⟩ t h1 ht hz', fun h => h.elim⟩
  · intro x X u y h1 _ hy hv
    refine ⟨fun z h => ?_, fun h => h.elim⟩
    have h : f.correctI lsFuel X y.meas (some ⟨u.value, some u.stamp⟩) none none = .ok z := h
    unfold IekfEnv.correctI at h
    cases hc : f.correctT lsFuel X y.meas (some ⟨u.value, some u.stamp⟩) none none with
    | error e => rw [hc] at h; cases h
    | ok r =>
      rw [hc] at h
      cases h
      unfold IekfEnv.correctT at hc
      obtain ⟨xp, ha, hc⟩ := bind_ok hc
      have hxp : xp.state = ⟨(g.move x (u.value, u.stamp) y.stamp).1, some y.stamp⟩ := by
        unfold IekfEnv.advanceI at ha
        simp only [h1, y.hstamp] at ha
        split at ha
        · cases ha
        · split at ha
          · rename_i hd
            exact hpred x X xp ⟨u.value, some u.stamp⟩ y.stamp h1 (by linarith) ha
          · cases ha
            rcases hy with hy | hy
            · rw [hy, move_self hz]; exact h1
            · have : (0 : ℝ) < 1 / 10 ^ 11 := by positivity
              linarith
      have := iekf_fuse_on f h0 hmm lsFuel (by rw [hxp]; exact .inl hv) hc
      exact this.trans hxp

/-- **C99, generator and filter.** For every process model (no flow property), input function whose inputs carry the time they are asked
for, and measurement models: data generated without noise, given to `run_filter` with an EKF for the same process model started at the
generator's initial state, give a run that raises nothing and has one result per input but the last. The `k`-th result is a state from
which the `k`-th input leads exactly to the `k+1`-st ground truth state; it is the `k`-th ground truth state itself when no measurement
is stamped strictly between the two. -/
theorem C99_ekf {g : DataGen V U n nu} (hf : 0 < g.inputFreq) (hinfo : ∀ r ∈ g.info, 0 < r.freq ∧ 0 ≤ r.offset)
    (hz : ∀ v u s, (g.proc.evaluate ⟨v, some s⟩ u 0).value = v) (hst : ∀ t v, ((g.inputFunc t v).toInput t).2 = t)
    {x0 : V} {start stop : ℝ} {D : GenData V U n}
    (h : g.generate x0 start stop none = .ok D) (hs : (D.states.map Prod.snd).Pairwise (· < ·))
    (hd : ∀ d ∈ D.meas, ∀ s ∈ D.states.map Prod.snd ++ D.meas.map GenMeas.stamp, Distinguishable d.stamp s)
    {t0 : ℝ} (ht0 : (D.states.map Prod.snd).head? = some t0)
    (e : EkfEnv V U n) (he : e.proc = g.proc) (h0 : ∀ v, e.plus v 0 = v)
    (hQ : ∀ x u dt, 0 ≤ dt → (e.proc.covariance x u dt).PosSemidef) (hR : ∀ d ∈ D.meas, ∀ s, (d.model.covariance s).PosDef)
    (P0 : Mat n n) (hP : P0.PosSemidef) :
    ∃ rs, runFilter (ekfApi e) ⟨⟨x0, some t0⟩, P0⟩ D.inputLog D.measLog = .ok rs ∧ rs.length = D.inputs.length - 1 ∧
      ∀ (k : ℕ) (r : SWC V n) (u : U × ℝ) (x x' : V × ℝ), rs[k]? = some r → D.inputs[k]? = some u → D.states[k]? = some x →
        D.states[k + 1]? = some x' → r.cov.PosSemidef ∧
        (∃ s, r.state.stamp = some s ∧ x.2 ≤ s ∧ s < x'.2 ∧
          (e.proc.evaluate r.state ⟨u.1, some u.2⟩ (x'.2 - s)).value = x'.1) ∧
        ((∀ d ∈ D.meas, ¬ (x.2 < d.stamp ∧ d.stamp < x'.2)) → r.state = ⟨x.1, some x.2⟩) := by
  have main := generate_tracks hf hinfo hz hst h hs hd ht0 (ekf_tracks e he hz h0 hQ) hR (X0 := ⟨⟨x0, some t0⟩, P0⟩) ⟨rfl, hP⟩
  obtain ⟨rs, hrs⟩ := main.2 trivial
  refine ⟨rs, hrs, (main.1 rs hrs).1, fun k r u x x' e1 e2 e3 e4 => ?_⟩
  obtain ⟨p, ⟨p1, p2⟩, q1, q2, q3, q4⟩ := (main.1 rs hrs).2 k r u x x' e1 e2 e3 e4
  refine ⟨p2, ⟨p.2, by rw [p1], q1, q2, ?_⟩, fun hno => ?_⟩
  · rw [p1, he]
    exact congrArg Prod.fst q3
  · rw [p1, q4 (fun s hs' => by obtain ⟨d, hd1, rfl⟩ := List.mem_map.mp hs'; exact hno d hd1)]

/-- **C99, generator and iterated filter.** The same estimates, whenever the run returns. -/
theorem C99_iekf {g : DataGen V U n nu} (hf : 0 < g.inputFreq) (hinfo : ∀ r ∈ g.info, 0 < r.freq ∧ 0 ≤ r.offset)
    (hz : ∀ v u s, (g.proc.evaluate ⟨v, some s⟩ u 0).value = v) (hst : ∀ t v, ((g.inputFunc t v).toInput t).2 = t)
    {x0 : V} {start stop : ℝ} {D : GenData V U n}
    (h : g.generate x0 start stop none = .ok D) (hs : (D.states.map Prod.snd).Pairwise (· < ·))
    (hd : ∀ d ∈ D.meas, ∀ s ∈ D.states.map Prod.snd ++ D.meas.map GenMeas.stamp, Distinguishable d.stamp s)
    {t0 : ℝ} (ht0 : (D.states.map Prod.snd).head? = some t0)
    (e : IekfEnv V U n) (he : e.proc = g.proc) (h0 : ∀ v, e.plus v 0 = v) (hmm : ∀ v, e.minus v v = 0) (lsFuel : ℕ)
    (P0 : Mat n n) (rs : List (SWC V n)) (hrun : runFilter (iekfApi e lsFuel) ⟨⟨x0, some t0⟩, P0⟩ D.inputLog D.measLog = .ok rs) :
    rs.length = D.inputs.length - 1 ∧
      ∀ (k : ℕ) (r : SWC V n) (u : U × ℝ) (x x' : V × ℝ), rs[k]? = some r → D.inputs[k]? = some u → D.states[k]? = some x →
        D.states[k + 1]? = some x' →
        (∃ s, r.state.stamp = some s ∧ x.2 ≤ s ∧ s < x'.2 ∧
          (e.proc.evaluate r.state ⟨u.1, some u.2⟩ (x'.2 - s)).value = x'.1) ∧
        ((∀ d ∈ D.meas, ¬ (x.2 < d.stamp ∧ d.stamp < x'.2)) → r.state = ⟨x.1, some x.2⟩) := by
  have main := generate_tracks hf hinfo hz hst h hs hd ht0 (iekf_tracks e lsFuel he hz h0 hmm) (fun _ _ => trivial)
    (X0 := ⟨⟨x0, some t0⟩, P0⟩) rfl
  refine ⟨(main.1 rs hrun).1, fun k r u x x' e1 e2 e3 e4 => ?_⟩
  obtain ⟨p, p1, q1, q2, q3, q4⟩ := (main.1 rs hrun).2 k r u x x' e1 e2 e3 e4
  refine ⟨⟨p.2, by rw [p1], q1, q2, ?_⟩, fun hno => ?_⟩
  · rw [p1, he]
    exact congrArg Prod.fst q3
  · rw [p1, q4 (fun s hs' => by obtain ⟨d, hd1, rfl⟩ := List.mem_map.mp hs'; exact hno d hd1)]

/-! ### A case: one Euler step of `x' = x`, which is not a flow -/

theorem euler_data :
    (scalarGen (fun x dt => x + x * dt) [⟨1, idMeas, 1, 1 / 2⟩]).generate 1 0 3 none =
      .ok ⟨[(1, 0), (9 / 4, 1), (81 / 16, 2)], [((), 0), ((), 1)],
        [⟨1, idMeas, 1 / 2, some fun _ => 3 / 2⟩, ⟨1, idMeas, 3 / 2, some fun _ => 27 / 8⟩]⟩ := by
  unfold DataGen.generate
  rw [show (scalarGen (fun x dt => x + x * dt) [⟨1, idMeas, 1, 1 / 2⟩]).inputFreq = 1 from rfl, grid_three, ok_bindE]
  simp only [List.getLast?_cons_cons, List.getLast?_singleton, Option.getD_some]
  rw [noiseFree_requested, ok_bindE]
  set G := scalarGen (fun x dt => x + x * dt) [⟨1, idMeas, 1, 1 / 2⟩] with hG
  have hmv : ∀ (v s t : ℝ) (u : Unit × ℝ), G.move (v, s) u t = (v + v * (t - s), t) := fun v s t u => rfl
  have hin : ∀ (t v : ℝ), (G.inputFunc t v).toInput t = ((), t) := fun t v => rfl
  have f1 : ∀ u, G.fill none 1 u [⟨1, idMeas, 1 / 2, none⟩, ⟨1, idMeas, 3 / 2, none⟩] 0 (1, 0) =
      .ok ((1 + 1 * (1 / 2 - 0), 1 / 2), [⟨1, idMeas, 1 / 2, some fun _ => 1 + 1 * (1 / 2 - 0)⟩], [⟨1, idMeas, 3 / 2, none⟩]) := by
    intro u
    unfold DataGen.fill
    rw [if_pos (by norm_num)]
    have f0 : ∀ j x, G.fill none 1 u [⟨1, idMeas, 3 / 2, none⟩] j x = .ok (x, [], [⟨1, idMeas, 3 / 2, none⟩]) :=
      fun j x => if_neg (by norm_num)
    simp only [f0]
    rfl
  have f2 : ∀ u v, G.fill none 2 u [⟨1, idMeas, 3 / 2, none⟩] 1 (v, 1) =
      .ok ((v + v * (3 / 2 - 1), 3 / 2), [⟨1, idMeas, 3 / 2, some fun _ => v + v * (3 / 2 - 1)⟩], []) := by
    intro u v
    unfold DataGen.fill
    rw [if_pos (by norm_num)]
    rfl
  unfold DataGen.loop
  simp only [hin, f1, ok_bindE, DataGen.inputOut, hmv]
  unfold DataGen.loop
  simp only [hin, List.length_singleton, Nat.zero_add, f2, ok_bindE, DataGen.inputOut, hmv]
  unfold DataGen.loop
  simp only [ok_bindE, pure, Except.pure, List.append_nil, List.singleton_append, bind, Except.bind]
  rw [sort2 (Prod.snd : Unit × ℝ → ℝ) _ _ (by norm_num), sort2 (GenMeas.stamp (V := ℝ) (n := 1)) _ _ (by norm_num),
    sortByStamp_of_sorted (Prod.snd : ℝ × ℝ → ℝ) _ (by simp [TimeSorted])]
  norm_num

/-- The hypotheses of `C99_ekf` hold for data of a process model that is not a flow, with measurements between the samples: the EKF's
only result is the state 3/2 at the time of the measurement, from which the model leads to the sample 9/4. -/
example : ¬ IsFlow (scalarGen (fun x dt => x + x * dt) [⟨1, idMeas, 1, 1 / 2⟩]).proc ∧
    ∃ r, runFilter (ekfApi (⟨(scalarGen (fun x dt => x + x * dt) [⟨1, idMeas, 1, 1 / 2⟩]).proc, true, fun v d => v + d 0, fun _ => 6⟩ :
      EkfEnv ℝ Unit 1)) ⟨⟨1, some 0⟩, 1⟩ [⟨(), 0⟩, ⟨(), 1⟩]
      [⟨⟨1, fun _ => 3 / 2, some (1 / 2), idMeas⟩, 1 / 2, rfl⟩, ⟨⟨1, fun _ => 27 / 8, some (3 / 2), idMeas⟩, 3 / 2, rfl⟩] = .ok [r] ∧
    r.cov.PosSemidef := by
  refine ⟨fun h => ?_, ?_⟩
  · have := h 1 ⟨(), none⟩ 0 1 1
    simp only [scalarGen] at this
    norm_num at this
  obtain ⟨rs, h1, h2, h3⟩ := C99_ekf (g := scalarGen (fun x dt => x + x * dt) [⟨1, idMeas, 1, 1 / 2⟩]) (by norm_num [scalarGen])
    (by simp [scalarGen]) (by intro v u s; simp [scalarGen])
    (fun _ _ => rfl) euler_data (by simp) (by
      intro d hd s hs
      simp only [List.mem_cons, List.not_mem_nil, or_false] at hd
      simp only [List.map_cons, List.map_nil, List.cons_append, List.nil_append, List.mem_cons, List.not_mem_nil, or_false] at hs
      unfold Distinguishable
      rcases hd with rfl | rfl <;> rcases hs with rfl | rfl | rfl | rfl | rfl <;>
        first | (left; rfl) | (right; norm_num [abs_of_pos, abs_of_neg]))
    (t0 := 0) rfl ⟨(scalarGen (fun x dt => x + x * dt) [⟨1, idMeas, 1, 1 / 2⟩]).proc, true, fun v d => v + d 0, fun _ => 6⟩ rfl
    (by intro v; simp) (by intro x u dt _; exact PosSemidef.zero) (by
      intro d hd s
      simp only [List.mem_cons, List.not_mem_nil, or_false] at hd
      rcases hd with rfl | rfl <;> exact PosDef.one) 1 PosSemidef.one
  obtain ⟨r, rfl⟩ := List.length_eq_one_iff.mp h2
  exact ⟨r, h1, (h3 0 r ((), 0) (1, 0) (9 / 4, 1) rfl rfl rfl rfl).1⟩

end Verif
