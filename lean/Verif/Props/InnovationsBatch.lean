import Verif.Props.Innovations
import Verif.Props.BatchEqualsFilter

/-!
C130: the innovations of the filter and the cost of the batch solution.
-/

set_option linter.unusedSectionVars false
set_option linter.unusedVariables false

namespace Verif

open Matrix

variable {n : ℕ} {U : Type} (A : Inp U → ℝ → Mat n n) (b : Inp U → ℝ → Vec n) (Q : Inp U → ℝ → Mat n n) (chi : ℕ → ℝ)

theorem procCost_congr : ∀ (us : List (StInp U)) (k : ℕ) (X Y : ℕ → Vec n), (∀ i < k + us.length, X i = Y i) →
    procCost A b Q X k us = procCost A b Q Y k us
  | [], k, X, Y, h => rfl
  | [_], k, X, Y, h => rfl
  | u :: u' :: us, k, X, Y, h => by
    unfold procCost
    rw [h k (by simp only [List.length_cons]; omega), h (k + 1) (by simp only [List.length_cons]; omega),
      procCost_congr (u' :: us) (k + 1) X Y fun i hi => h i (by simp only [List.length_cons] at hi ⊢; omega)]

theorem batchObjective_congr {x0 : Vec n} {P0 : Mat n n} {us : List (StInp U)} {meas : List (StMeas (Vec n) n)} (hne : 0 < us.length)
    (hm : ∀ y ∈ meas, ∃ u ∈ us, u.stamp = y.stamp) {X Y : ℕ → Vec n} (h : ∀ k < us.length, X k = Y k) :
    batchObjective A b Q x0 P0 us meas X = batchObjective A b Q x0 P0 us meas Y := by
  classical
  unfold batchObjective
  rw [h 0 hne, procCost_congr A b Q us 0 X Y fun i hi => h i (by omega)]
  congr 2
  refine List.map_congr_left fun y hy => ?_
  obtain ⟨u, hu, hut⟩ := hm y hy
  have hmem : y.stamp ∈ us.map StInp.stamp := List.mem_map.2 ⟨u, hu, hut⟩
  have hlt := List.idxOf_lt_length_of_mem hmem
  rw [List.length_map] at hlt
  unfold measTerm
  rw [h _ hlt]

open Classical in
/-- What `run_filter` does, to its end, has the cost of the batch objective. -/
theorem schedule_all {ys : List (StMeas (Vec n) n)} :
    ∀ (us : List (StInp U)) (u u' : StInp U) (k : ℕ) (first : Bool) (X : ℕ → Vec n),
      (u :: u' :: us).Pairwise (fun a c => a.stamp < c.stamp) → (first = true → ∀ y ∈ ys, u.stamp ≤ y.stamp) →
      (∀ y ∈ ys, u.stamp ≤ y.stamp → ∃ v ∈ (u :: u' :: us).dropLast, v.stamp = y.stamp) →
      procCost A b Q X k (u :: u' :: us) + (ys.map fun y => if u.stamp ≤ y.stamp then
            measTerm X (k + ((u :: u' :: us).map StInp.stamp).idxOf y.stamp) y else 0).sum =
        chainCost (linFilter A b Q chi) X k u.stamp (schedule StInp.stamp StMeas.stamp first (u :: u' :: us) ys)
  | us, u, u', k, first, X, hs, hf, hy => by
    have huu : u.stamp < u'.stamp := (List.pairwise_cons.1 hs).1 u' (by simp)
    have hs' := (List.pairwise_cons.1 hs).2
    have hat : ∀ y ∈ ys, u.stamp ≤ y.stamp → y.stamp < u'.stamp → y.stamp = u.stamp := by
      intro y hy1 h1 h2
      obtain ⟨v, hv, hvs⟩ := hy y hy1 h1
      rcases List.mem_cons.1 (List.dropLast_subset _ hv) with rfl | hv'
      · exact hvs.symm
      · rcases List.mem_cons.1 hv' with rfl | hv''
        · linarith
        · have := (List.pairwise_cons.1 hs').1 v hv''
          linarith
    have hfil : ∀ y ∈ ys.filter (fun y => decide ((first = true ∨ u.stamp ≤ y.stamp) ∧ y.stamp < u'.stamp)),
        y.stamp = u.stamp := by
      intro y hyf
      obtain ⟨h1, h2⟩ := List.mem_filter.1 hyf
      simp only [decide_eq_true_eq] at h2
      refine hat y h1 ?_ h2.2
      rcases h2.1 with h | h
      · exact hf h y h1
      · exact h
    have hpw : ∀ y ∈ ys, (if u.stamp ≤ y.stamp then
          measTerm X (k + ((u :: u' :: us).map StInp.stamp).idxOf y.stamp) y else 0) =
        (if (decide ((first = true ∨ u.stamp ≤ y.stamp) ∧ y.stamp < u'.stamp)) = true then measTerm X k y else 0) +
        (if u'.stamp ≤ y.stamp then
          measTerm X (k + 1 + ((u' :: us).map StInp.stamp).idxOf y.stamp) y else 0) := by
      intro y hyy
      simp only [decide_eq_true_eq]
      by_cases h1 : u.stamp ≤ y.stamp
      · rw [if_pos h1]
        by_cases h2 : y.stamp < u'.stamp
        · rw [if_pos ⟨.inr h1, h2⟩, if_neg (not_le.2 h2), add_zero, hat y hyy h1 h2, List.map_cons,
            List.idxOf_cons_self, Nat.add_zero]
        · rw [if_neg (fun h => h2 h.2), if_pos (not_lt.1 h2), zero_add, List.map_cons (a := u),
            List.idxOf_cons_ne _ (by have := not_lt.1 h2; intro h; linarith)]
          congr 1
          omega
      · rw [if_neg h1, if_neg (fun h => by
          rcases h.1 with h | h
          · exact h1 (hf h y hyy)
          · exact h1 h), if_neg (fun h => h1 (by linarith)), add_zero]
    have hsum := sum_split
      (fun y : StMeas (Vec n) n => decide ((first = true ∨ u.stamp ≤ y.stamp) ∧ y.stamp < u'.stamp))
      (fun y => if u.stamp ≤ y.stamp then measTerm X (k + ((u :: u' :: us).map StInp.stamp).idxOf y.stamp) y else 0)
      (measTerm X k)
      (fun y => if u'.stamp ≤ y.stamp then measTerm X (k + 1 + ((u' :: us).map StInp.stamp).idxOf y.stamp) y else 0)
      ys hpw
    have hc := (corrects_cost (linFilter A b Q chi) X u
      (Ev.record :: Ev.predict u u'.stamp :: schedule StInp.stamp StMeas.stamp false (u' :: us) ys) k u.stamp _ hfil).1
    have e0 : schedule StInp.stamp StMeas.stamp first (u :: u' :: us) ys =
        (ys.filter fun y => decide ((first = true ∨ u.stamp ≤ y.stamp) ∧ y.stamp < u'.stamp)).map (fun y => Ev.correct y u) ++
          (Ev.record :: Ev.predict u u'.stamp :: schedule StInp.stamp StMeas.stamp false (u' :: us) ys) := by
      conv_lhs => unfold schedule
      simp
    have e1 : procCost A b Q X k (u :: u' :: us) =
        procTerm (linFilter A b Q chi) X k u.stamp u u'.stamp + procCost A b Q X (k + 1) (u' :: us) := rfl
    have e2 : chainCost (linFilter A b Q chi) X k u.stamp
        (Ev.record :: Ev.predict u u'.stamp :: schedule StInp.stamp StMeas.stamp false (u' :: us) ys) =
        procTerm (linFilter A b Q chi) X k u.stamp u u'.stamp +
          chainCost (linFilter A b Q chi) X (k + 1) u'.stamp (schedule StInp.stamp StMeas.stamp false (u' :: us) ys) := rfl
    rw [e0, hc, hsum, e1, e2]
    have ih : procCost A b Q X (k + 1) (u' :: us) + (ys.map fun y => if u'.stamp ≤ y.stamp then
            measTerm X (k + 1 + ((u' :: us).map StInp.stamp).idxOf y.stamp) y else 0).sum =
        chainCost (linFilter A b Q chi) X (k + 1) u'.stamp (schedule StInp.stamp StMeas.stamp false (u' :: us) ys) := by
      cases us with
      | nil =>
        have hz : (ys.map fun y => if u'.stamp ≤ y.stamp then
            measTerm X (k + 1 + ((u' :: ([] : List (StInp U))).map StInp.stamp).idxOf y.stamp) y else 0).sum = 0 := by
          refine List.sum_eq_zero fun r hr => ?_
          obtain ⟨y, hyy, rfl⟩ := List.mem_map.1 hr
          refine if_neg fun hle => ?_
          obtain ⟨v, hv, hvs⟩ := hy y hyy (by linarith)
          have : v = u := by simpa using hv
          rw [← hvs, this] at hle
          linarith
        rw [hz]
        unfold schedule procCost chainCost
        simp
      | cons u'' us =>
        exact schedule_all us u' u'' (k + 1) false X hs' (fun h => (by cases h)) (fun y hyy hle => by
          obtain ⟨v, hv, hvs⟩ := hy y hyy (by linarith)
          rw [List.dropLast_cons_of_ne_nil (by simp)] at hv
          rcases List.mem_cons.1 hv with rfl | hv
          · linarith
          · exact ⟨v, hv, hvs⟩)
    linarith

/-- C130: under the hypotheses of C90, the normalised innovations squared that the corrections of the filter report add up to the
batch objective at the states that `BatchEstimator.solve` returns, which is its least value. -/
theorem C130_batch (hQ : ∀ u dt, 0 < dt → (Q u dt).PosDef) (hn : 0 < n) (rnd : ℝ → ℝ) (cfg : ProbCfg)
    (hs : cfg.solver = "GN") (hit : 0 < cfg.maxIters) (x0 : St (Vec n)) (t0 : ℝ) (h0 : x0.stamp = some t0)
    (P0 : Mat n n) (hP0 : P0.PosDef) (inputs : List (StInp U)) (meas : List (StMeas (Vec n) n))
    (us : List (StInp U)) (hperm : us.Perm inputs) (hsort : us.Pairwise (fun a c => a.stamp < c.stamp))
    (h2 : 2 ≤ us.length) (hfirst : ∀ u, us.head? = some u → u.stamp = t0)
    (hr : ∀ u ∈ inputs, rnd u.stamp = u.stamp)
    (hm : ∀ y ∈ meas, LinearMeas y ∧ ∃ u ∈ us.dropLast, u.stamp = y.stamp) :
    ∃ rs res r ds, runFilter (ekfApi (linFilter A b Q chi)) ⟨x0, P0⟩ inputs meas = .ok rs ∧
      Reports id (linFilter A b Q chi)
        (schedule StInp.stamp StMeas.stamp true (retained StInp.stamp t0 inputs) (retained StMeas.stamp t0 meas)) ⟨x0, P0⟩ ds r ∧
      batchSolve (vecStateOps n) (linProcModel A b Q) rnd cfg x0 P0 inputs meas = .ok res ∧ res.length = us.length ∧
      (∀ X, (ds.map nis).sum ≤ batchObjective A b Q x0.value P0 us meas X) ∧
      ∀ X : ℕ → Vec n, (∀ k x C, res[k]? = some (x, C) → X k = x.value) →
        batchObjective A b Q x0.value P0 us meas X = (ds.map nis).sum := by
  classical
  have hmu : ∀ y ∈ meas, ∃ u ∈ us, u.stamp = y.stamp := fun y hy => by
    obtain ⟨u, hu, h⟩ := (hm y hy).2
    exact ⟨u, List.dropLast_subset _ hu, h⟩
  obtain ⟨res, b1, b2, b3⟩ := C89_marginals A b Q hQ hn rnd cfg hs hit x0 t0 h0 P0 hP0 inputs meas us hperm hsort h2
    hfirst hr (fun y hy => ⟨(hm y hy).1, by
      obtain ⟨u, hu, h⟩ := hmu y hy
      exact ⟨u, hperm.mem_iff.1 hu, h⟩⟩)
  have hle : ∀ u ∈ us, t0 ≤ u.stamp := by
    cases us with
    | nil => simp
    | cons u us =>
      have h := hfirst u rfl
      intro v hv
      rcases List.mem_cons.1 hv with rfl | hv
      · exact h.symm.le
      · rw [← h]; exact ((List.pairwise_cons.1 hsort).1 v hv).le
  have hym : ∀ y ∈ meas, t0 ≤ y.stamp := fun y hy => by
    obtain ⟨u, hu, h⟩ := hmu y hy
    rw [← h]; exact hle u hu
  have hus : retained StInp.stamp t0 inputs = us := by
    rw [retained_all _ _ _ fun u hu => hle u (hperm.mem_iff.2 hu), sort_eq hperm hsort]
  have hys : retained StMeas.stamp t0 meas = sortByStamp StMeas.stamp meas := retained_all _ _ _ hym
  have hyp : (sortByStamp StMeas.stamp meas).Perm meas := sortByStamp_perm _ _
  have hnd : (inputs.map StInp.stamp).Nodup := by
    refine (hperm.map StInp.stamp).nodup_iff.1 ?_
    rw [List.Nodup, List.pairwise_map]
    exact hsort.imp fun h => ne_of_lt h
  obtain ⟨rs, f1, -, -⟩ := C88_run_filter A b Q chi hQ ⟨x0, P0⟩ t0 hP0 h0 inputs meas
    (by
      cases hi : inputs with
      | nil => exact .inl rfl
      | cons u l => exact .inr ⟨u, by simp, hle u (hperm.mem_iff.2 (by rw [hi]; simp))⟩)
    (by
      cases hi : meas with
      | nil => exact .inl rfl
      | cons u l => exact .inr ⟨u, by simp, hym u (by rw [hi]; simp)⟩) hnd (fun y hy => (hm y hy).1)
  have hfw := run_forward (t0 := t0) hnd (fun y hy => (hm y hy).1)
  obtain ⟨ds, r, g1, g2, -, g3⟩ := C130_events A b Q chi hQ _ ⟨x0, P0⟩ 0 t0 hP0 h0 hfw
  have hmin : (∀ X, (ds.map nis).sum ≤ batchObjective A b Q x0.value P0 us meas X) ∧
      ∃ X, batchObjective A b Q x0.value P0 us meas X = (ds.map nis).sum := by
    rw [hus, hys] at g3
    have hobj : ∀ X, batchObjective A b Q x0.value P0 us meas X = batchCost (linFilter A b Q chi) ⟨x0, P0⟩ 0 t0
        (schedule StInp.stamp StMeas.stamp true us (sortByStamp StMeas.stamp meas)) X := by
      intro X
      cases us with
      | nil => simp at h2
      | cons u us =>
        cases us with
        | nil => simp at h2
        | cons u' us =>
          have hu0 : u.stamp = t0 := hfirst u rfl
          have s5 := schedule_all A b Q chi (ys := sortByStamp StMeas.stamp meas) us u u' 0 true X hsort
            (fun _ y hy => by rw [hu0]; exact hym y (hyp.mem_iff.1 hy))
            (fun y hy _ => (hm y (hyp.mem_iff.1 hy)).2)
          simp only [Nat.zero_add] at s5
          unfold batchObjective batchCost
          have e1 : (meas.map fun y => measTerm X (((u :: u' :: us).map StInp.stamp).idxOf y.stamp) y).sum =
              ((sortByStamp StMeas.stamp meas).map fun y => if u.stamp ≤ y.stamp then
                measTerm X (((u :: u' :: us).map StInp.stamp).idxOf y.stamp) y else 0).sum := by
            rw [← (hyp.map _).sum_eq]
            congr 1
            refine List.map_congr_left fun y hy => ?_
            rw [if_pos (by rw [hu0]; exact hym y (hyp.mem_iff.1 hy))]
          rw [e1, add_assoc, s5, hu0]
    constructor
    · intro X
      have h3 := (g3 (X (lastIdx 0 t0 (schedule StInp.stamp StMeas.stamp true us (sortByStamp StMeas.stamp meas))))).2 ⟨X, rfl, rfl⟩
      have h4 := mahal_nonneg g2 (X (lastIdx 0 t0 (schedule StInp.stamp StMeas.stamp true us (sortByStamp StMeas.stamp meas))) - r.state.value)
      rw [hobj]
      linarith
    · obtain ⟨⟨X, -, hJ⟩, -⟩ := g3 r.state.value
      rw [sub_self, mahal_zero, add_zero] at hJ
      exact ⟨X, by rw [hobj, hJ]⟩
  refine ⟨rs, res, r, ds, f1, g1, b1, b2, hmin.1, fun X hX => ?_⟩
  have hM : ∀ k, ∃ G : Mat n n, k < us.length → MarginalAt (batchObjective A b Q x0.value P0 us meas) k (X k) G := by
    intro k
    by_cases hk : k < us.length
    · obtain ⟨⟨x, C⟩, hx⟩ : ∃ p, res[k]? = some p := ⟨_, List.getElem?_eq_getElem (by rw [b2]; exact hk)⟩
      obtain ⟨-, G, -, g⟩ := b3 k x C hx
      exact ⟨G, fun _ => by rw [hX k x C hx]; exact g⟩
    · exact ⟨0, fun h => absurd h hk⟩
  choose G hG using hM
  have h3 := (marginals_min (by omega) (fun X Y h => batchObjective_congr A b Q (by omega) hmu h) hG).1
  obtain ⟨Y, hY⟩ := hmin.2
  exact le_antisymm (by rw [← hY]; exact h3 Y) (hmin.1 X)

/-- The hypotheses of `C130_batch` are met: a scalar state, three unsorted inputs, a measurement at the second one. -/
example : ∃ res r ds, Reports id (linFilter (fun (_ : Inp (Vec 1)) _ => (1 : Mat 1 1))
      (fun u dt => dt • u.value) (fun _ dt => if 0 < dt then (1 : Mat 1 1) else 0) (fun _ => 0))
      (schedule StInp.stamp StMeas.stamp true (retained StInp.stamp 0 [⟨1, 1⟩, ⟨1, 0⟩, ⟨0, 2⟩]) (retained StMeas.stamp 0 [exMeas90]))
      ⟨⟨0, some 0⟩, 1⟩ ds r ∧
    batchSolve (vecStateOps 1) (linProcModel (fun (_ : Inp (Vec 1)) _ => (1 : Mat 1 1)) (fun u dt => dt • u.value)
      (fun _ dt => if 0 < dt then (1 : Mat 1 1) else 0)) id ⟨"GN", 5, none, none, none, 1⟩ ⟨0, some 0⟩ 1
      [⟨1, 1⟩, ⟨1, 0⟩, ⟨0, 2⟩] [exMeas90] = .ok res ∧
    ∀ X : ℕ → Vec 1, (∀ k x C, res[k]? = some (x, C) → X k = x.value) →
      batchObjective (fun (_ : Inp (Vec 1)) _ => (1 : Mat 1 1)) (fun u dt => dt • u.value)
        (fun _ dt => if 0 < dt then (1 : Mat 1 1) else 0) 0 1 [⟨1, 0⟩, ⟨1, 1⟩, ⟨0, 2⟩] [exMeas90] X = (ds.map nis).sum := by
  obtain ⟨rs, res, r, ds, -, h2, h3, -, -, h4⟩ := C130_batch (n := 1)
    (fun (_ : Inp (Vec 1)) _ => (1 : Mat 1 1)) (fun u dt => dt • u.value)
    (fun _ dt => if 0 < dt then (1 : Mat 1 1) else 0) (fun _ => 0)
    (fun u dt hdt => by simp only [if_pos hdt]; exact Matrix.PosDef.one) one_pos id ⟨"GN", 5, none, none, none, 1⟩ rfl
    (by decide) ⟨0, some 0⟩ 0 rfl 1 Matrix.PosDef.one [⟨1, 1⟩, ⟨1, 0⟩, ⟨0, 2⟩] [exMeas90]
    [⟨1, 0⟩, ⟨1, 1⟩, ⟨0, 2⟩] (List.Perm.swap _ _ _) (by norm_num) (by simp)
    (fun u hu => by
      simp only [List.head?_cons, Option.some.injEq] at hu
      rw [← hu]) (fun u _ => rfl)
    (fun y hy => by
      rw [List.mem_singleton.mp hy]
      exact ⟨⟨(1 : Mat 1 1), (1 : Mat 1 1), Matrix.PosDef.one, rfl⟩, ⟨1, 1⟩, by simp, rfl⟩)
  exact ⟨res, r, ds, h2, h3, h4⟩

end Verif
