import Verif.Props.BatchObjective

/-!
C90: with linear models, `BatchEstimator` at the last input but one and `run_filter` at its end agree.
-/

namespace Verif

set_option linter.unusedVariables false
set_option linter.unusedSectionVars false

open Matrix

variable {U : Type} {n : ℕ}

/-! ### Chains only look at states up to the last -/

theorem chainCost_congr_le (e : EkfEnv (Vec n) U n) : ∀ (es : List (Ev (StInp U) (StMeas (Vec n) n))) (k : ℕ) (τ : ℝ)
    (X X' : ℕ → Vec n), (∀ j, j ≤ lastIdx k τ es → X j = X' j) → chainCost e X k τ es = chainCost e X' k τ es
  | [], k, τ, X, X', h => rfl
  | .record :: es, k, τ, X, X', h => chainCost_congr_le e es k τ X X' h
  | .predict u t :: es, k, τ, X, X', h => by
    have hl : k + 1 ≤ lastIdx (k + 1) t es := lastIdx_le es (k + 1) t
    have h' : ∀ j, j ≤ lastIdx (k + 1) t es → X j = X' j := h
    unfold chainCost procTerm
    rw [h' k (by omega), h' (k + 1) hl, chainCost_congr_le e es (k + 1) t X X' h']
  | .correct y u :: es, k, τ, X, X', h => by
    unfold lastIdx at h
    unfold chainCost procTerm measTerm
    split
    · rename_i hlt
      rw [if_pos hlt] at h
      have hl : k + 1 ≤ lastIdx (k + 1) y.stamp es := lastIdx_le es (k + 1) y.stamp
      rw [h k (by omega), h (k + 1) hl, chainCost_congr_le e es (k + 1) y.stamp X X' h]
    · rename_i hlt
      rw [if_neg hlt] at h
      have hl : k ≤ lastIdx k τ es := lastIdx_le es k τ
      rw [h k hl, chainCost_congr_le e es k τ X X' h]

/-! ### Measurements at the current time -/

theorem corrects_cost (e : EkfEnv (Vec n) U n) (X : ℕ → Vec n) (u : StInp U)
    (es : List (Ev (StInp U) (StMeas (Vec n) n))) (k : ℕ) (τ : ℝ) : ∀ ys : List (StMeas (Vec n) n),
    (∀ y ∈ ys, y.stamp = τ) →
      chainCost e X k τ (ys.map (fun y => Ev.correct y u) ++ es) = (ys.map (measTerm X k)).sum + chainCost e X k τ es ∧
      lastIdx k τ (ys.map (fun y => Ev.correct y u) ++ es) = lastIdx k τ es ∧
      recorded (ys.map (fun y => Ev.correct y u) ++ es) = recorded es
  | [], h => ⟨by simp, rfl, rfl⟩
  | y :: ys, h => by
    obtain ⟨h1, h2, h3⟩ := corrects_cost e X u es k τ ys fun z hz => h z (by simp [hz])
    have hn : ¬ y.stamp - τ > 1 / 10 ^ 11 := by
      rw [h y (by simp), sub_self]
      exact not_lt.2 (by positivity)
    rw [List.map_cons, List.cons_append]
    refine ⟨?_, ?_, h3⟩
    · have e1 : chainCost e X k τ (Ev.correct y u :: (ys.map (fun y => Ev.correct y u) ++ es)) =
          measTerm X k y + chainCost e X k τ (ys.map (fun y => Ev.correct y u) ++ es) := if_neg hn
      rw [e1, h1, List.map_cons, List.sum_cons]
      ring
    · have e1 : lastIdx k τ (Ev.correct y u :: (ys.map (fun y => Ev.correct y u) ++ es)) =
          lastIdx k τ (ys.map (fun y => Ev.correct y u) ++ es) := if_neg hn
      rw [e1, h2]

theorem sum_split {α : Type} (p : α → Bool) (f g h : α → ℝ) : ∀ ys : List α,
    (∀ y ∈ ys, f y = (if p y = true then g y else 0) + h y) →
      (ys.map f).sum = ((ys.filter p).map g).sum + (ys.map h).sum
  | [], _ => by simp
  | y :: ys, hy => by
    have ih := sum_split p f g h ys fun z hz => hy z (by simp [hz])
    have hy0 := hy y (by simp)
    rw [List.map_cons, List.sum_cons, ih, hy0, List.map_cons, List.sum_cons]
    by_cases hp : p y = true
    · rw [if_pos hp, List.filter_cons_of_pos hp, List.map_cons, List.sum_cons]; ring
    · rw [if_neg hp, List.filter_cons_of_neg hp]; ring

variable (A : Inp U → ℝ → Mat n n) (b : Inp U → ℝ → Vec n) (Q : Inp U → ℝ → Mat n n) (chi : ℕ → ℝ)

/-! ### The schedule of the filter -/

open Classical in
/-- What `run_filter` does up to the last estimate it records has the cost of the batch objective without the last
process term. -/
theorem schedule_cost (hQ : ∀ u dt, 0 < dt → (Q u dt).PosDef) {ys : List (StMeas (Vec n) n)} :
    ∀ (us : List (StInp U)) (u u' : StInp U) (k : ℕ) (first : Bool),
      (u :: u' :: us).Pairwise (fun a c => a.stamp < c.stamp) → (first = true → ∀ y ∈ ys, u.stamp ≤ y.stamp) →
      (∀ y ∈ ys, u.stamp ≤ y.stamp → ∃ v ∈ (u :: u' :: us).dropLast, v.stamp = y.stamp) →
      ∃ (pre : List (Ev (StInp U) (StMeas (Vec n) n))) (ul : StInp U) (tl : ℝ) (T : Vec n → Vec n) (G : Mat n n),
        schedule StInp.stamp StMeas.stamp first (u :: u' :: us) ys = pre ++ [Ev.record, Ev.predict ul tl] ∧
        recorded pre = us.length ∧ lastIdx k u.stamp pre = k + us.length ∧ G.PosDef ∧
        ∀ X : ℕ → Vec n, procCost A b Q X k (u :: u' :: us) +
          (ys.map fun y => if u.stamp ≤ y.stamp then
            measTerm X (k + ((u :: u' :: us).map StInp.stamp).idxOf y.stamp) y else 0).sum =
          chainCost (linFilter A b Q chi) X k u.stamp pre +
            mahal G (X (k + us.length + 1) - T (X (k + us.length)))
  | us, u, u', k, first, hs, hf, hy => by
    have huu : u.stamp < u'.stamp := (List.pairwise_cons.1 hs).1 u' (by simp)
    have hs' := (List.pairwise_cons.1 hs).2
    -- measurements of this interval are at its beginning
    have hat : ∀ y ∈ ys, u.stamp ≤ y.stamp → y.stamp < u'.stamp → y.stamp = u.stamp := by
      intro y hy1 h1 h2
      obtain ⟨v, hv, hvs⟩ := hy y hy1 h1
      rcases List.mem_cons.1 (List.dropLast_subset _ hv) with rfl | hv'
      · exact hvs.symm
      · rcases List.mem_cons.1 hv' with rfl | hv''
        · linarith
        · have := (List.pairwise_cons.1 hs').1 v hv''
          linarith
    have hfil : ∀ y ∈ ys.filter (fun y => decide ((first = true ∨ u.stamp ≤ y.stamp) ∧ y.stamp < u'.stamp)),
        y.stamp = u.stamp := by
      intro y hyf
      obtain ⟨h1, h2⟩ := List.mem_filter.1 hyf
      simp only [decide_eq_true_eq] at h2
      refine hat y h1 ?_ h2.2
      rcases h2.1 with h | h
      · exact hf h y h1
      · exact h
    have hpw : ∀ (X : ℕ → Vec n), ∀ y ∈ ys, (if u.stamp ≤ y.stamp then
          measTerm X (k + ((u :: u' :: us).map StInp.stamp).idxOf y.stamp) y else 0) =
        (if (decide ((first = true ∨ u.stamp ≤ y.stamp) ∧ y.stamp < u'.stamp)) = true then measTerm X k y else 0) +
        (if u'.stamp ≤ y.stamp then
          measTerm X (k + 1 + ((u' :: us).map StInp.stamp).idxOf y.stamp) y else 0) := by
      intro X y hyy
      simp only [decide_eq_true_eq]
      by_cases h1 : u.stamp ≤ y.stamp
      · rw [if_pos h1]
        by_cases h2 : y.stamp < u'.stamp
        · rw [if_pos ⟨.inr h1, h2⟩, if_neg (not_le.2 h2), add_zero, hat y hyy h1 h2, List.map_cons,
            List.idxOf_cons_self, Nat.add_zero]
        · rw [if_neg (fun h => h2 h.2), if_pos (not_lt.1 h2), zero_add, List.map_cons (a := u),
            List.idxOf_cons_ne _ (by have := not_lt.1 h2; intro h; linarith)]
          congr 1
          omega
      · rw [if_neg h1, if_neg (fun h => by
          rcases h.1 with h | h
          · exact h1 (hf h y hyy)
          · exact h1 h), if_neg (fun h => h1 (by linarith)), add_zero]
    have hsum := fun X : ℕ → Vec n => sum_split
      (fun y : StMeas (Vec n) n => decide ((first = true ∨ u.stamp ≤ y.stamp) ∧ y.stamp < u'.stamp))
      (fun y => if u.stamp ≤ y.stamp then measTerm X (k + ((u :: u' :: us).map StInp.stamp).idxOf y.stamp) y else 0)
      (measTerm X k)
      (fun y => if u'.stamp ≤ y.stamp then measTerm X (k + 1 + ((u' :: us).map StInp.stamp).idxOf y.stamp) y else 0)
      ys (hpw X)
    cases us with
    | nil =>
      refine ⟨(ys.filter fun y => decide ((first = true ∨ u.stamp ≤ y.stamp) ∧ y.stamp < u'.stamp)).map
        (fun y => Ev.correct y u), u, u'.stamp,
        fun x => A ⟨u.value, some u.stamp⟩ (u'.stamp - u.stamp) *ᵥ x + b ⟨u.value, some u.stamp⟩ (u'.stamp - u.stamp),
        Q ⟨u.value, some u.stamp⟩ (u'.stamp - u.stamp), ?_, ?_, ?_, hQ _ _ (sub_pos.2 huu), fun X => ?_⟩
      · unfold schedule
        unfold schedule
        rw [List.append_nil]
      · have := (corrects_cost (linFilter A b Q chi) 0 u [] k u.stamp _ hfil).2.2
        rw [List.append_nil] at this
        rw [this]
        rfl
      · have := (corrects_cost (linFilter A b Q chi) 0 u [] k u.stamp _ hfil).2.1
        rw [List.append_nil] at this
        rw [this]
        rfl
      · have h1 := (corrects_cost (linFilter A b Q chi) X u [] k u.stamp _ hfil).1
        rw [List.append_nil] at h1
        rw [h1, hsum X]
        have hz : (ys.map fun y => if u'.stamp ≤ y.stamp then
            measTerm X (k + 1 + ((u' :: ([] : List (StInp U))).map StInp.stamp).idxOf y.stamp) y else 0).sum = 0 := by
          refine List.sum_eq_zero fun r hr => ?_
          obtain ⟨y, hyy, rfl⟩ := List.mem_map.1 hr
          refine if_neg fun hle => ?_
          obtain ⟨v, hv, hvs⟩ := hy y hyy (by linarith)
          have : v = u := by simpa using hv
          rw [← hvs, this] at hle
          linarith
        rw [hz]
        unfold procCost procCost chainCost
        simp only [List.length_nil, Nat.add_zero]
        ring
    | cons u'' us =>
      obtain ⟨pre, ul, tl, T, G, i1, i2, i3, i4, i5⟩ := schedule_cost hQ us u' u'' (k + 1) false hs'
        (fun h => (by cases h)) (fun y hyy hle => by
          obtain ⟨v, hv, hvs⟩ := hy y hyy (by linarith)
          rw [List.dropLast_cons_of_ne_nil (by simp)] at hv
          rcases List.mem_cons.1 hv with rfl | hv
          · linarith
          · exact ⟨v, hv, hvs⟩)
      have hc := fun X : ℕ → Vec n => corrects_cost (linFilter A b Q chi) X u
        (Ev.record :: Ev.predict u u'.stamp :: pre) k u.stamp _ hfil
      refine ⟨(ys.filter fun y => decide ((first = true ∨ u.stamp ≤ y.stamp) ∧ y.stamp < u'.stamp)).map
        (fun y => Ev.correct y u) ++ (Ev.record :: Ev.predict u u'.stamp :: pre), ul, tl, T, G, ?_, ?_, ?_, i4,
        fun X => ?_⟩
      · unfold schedule
        rw [i1]
        simp
      · rw [(hc 0).2.2]
        show recorded pre + 1 = _
        rw [i2, List.length_cons]
      · rw [(hc 0).2.1]
        show lastIdx (k + 1) u'.stamp pre = _
        rw [i3, List.length_cons]
        omega
      · rw [(hc X).1, hsum X]
        have h5 := i5 X
        have e1 : procCost A b Q X k (u :: u' :: u'' :: us) =
            procTerm (linFilter A b Q chi) X k u.stamp u u'.stamp + procCost A b Q X (k + 1) (u' :: u'' :: us) := rfl
        have e2 : chainCost (linFilter A b Q chi) X k u.stamp (Ev.record :: Ev.predict u u'.stamp :: pre) =
            procTerm (linFilter A b Q chi) X k u.stamp u u'.stamp +
              chainCost (linFilter A b Q chi) X (k + 1) u'.stamp pre := rfl
        rw [e1, e2, List.length_cons, show k + (us.length + 1) = k + 1 + us.length by omega]
        linarith

theorem record_unique {I Y : Type} : ∀ {pre pre' post post' : List (Ev I Y)},
    pre ++ Ev.record :: post = pre' ++ Ev.record :: post' → recorded pre = recorded pre' → pre = pre'
  | [], [], _, _, _, _ => rfl
  | [], e :: pre', post, post', h, hr => by
    simp only [List.nil_append, List.cons_append, List.cons.injEq] at h
    rw [← h.1] at hr
    simp [recorded] at hr
  | e :: pre, [], post, post', h, hr => by
    simp only [List.nil_append, List.cons_append, List.cons.injEq] at h
    rw [h.1] at hr
    simp [recorded] at hr
  | e :: pre, e' :: pre', post, post', h, hr => by
    simp only [List.cons_append, List.cons.injEq] at h
    obtain ⟨rfl, h⟩ := h
    rw [record_unique h (by cases e <;> simpa [recorded] using hr)]

theorem recorded_append {I Y : Type} : ∀ (l l' : List (Ev I Y)), recorded (l ++ l') = recorded l + recorded l'
  | [], l' => by simp [recorded]
  | e :: l, l' => by
    have ih := recorded_append l l'
    cases e <;> simp only [List.cons_append, recorded, ih]
    omega

theorem retained_all {α : Type} (stamp : α → ℝ) (t0 : ℝ) (l : List α) (h : ∀ a ∈ l, t0 ≤ stamp a) :
    retained stamp t0 l = sortByStamp stamp l := by
  unfold retained
  refine List.filter_eq_self.2 fun a ha => ?_
  simpa using h a ((sortByStamp_mem stamp).1 ha)

/-- **C90.** Under the hypotheses of C89, if no measurement is at the last input: `run_filter` around the extended
Kalman filter and `BatchEstimator.solve` both succeed; the last estimate of the filter is for the last input but one, and
it has the same mean and the same covariance as the estimate of the batch solution for that time. -/
theorem C90_filter_eq_batch (hQ : ∀ u dt, 0 < dt → (Q u dt).PosDef) (hn : 0 < n) (rnd : ℝ → ℝ) (cfg : ProbCfg)
    (hs : cfg.solver = "GN") (hit : 0 < cfg.maxIters) (x0 : St (Vec n)) (t0 : ℝ) (h0 : x0.stamp = some t0)
    (P0 : Mat n n) (hP0 : P0.PosDef) (inputs : List (StInp U)) (meas : List (StMeas (Vec n) n))
    (us : List (StInp U)) (hperm : us.Perm inputs) (hsort : us.Pairwise (fun a c => a.stamp < c.stamp))
    (h2 : 2 ≤ us.length) (hfirst : ∀ u, us.head? = some u → u.stamp = t0)
    (hr : ∀ u ∈ inputs, rnd u.stamp = u.stamp)
    (hm : ∀ y ∈ meas, LinearMeas y ∧ ∃ u ∈ us.dropLast, u.stamp = y.stamp) :
    ∃ rs res r x C, runFilter (ekfApi (linFilter A b Q chi)) ⟨x0, P0⟩ inputs meas = .ok rs ∧
      batchSolve (vecStateOps n) (linProcModel A b Q) rnd cfg x0 P0 inputs meas = .ok res ∧
      res.length = us.length ∧ rs.length + 1 = us.length ∧ rs.getLast? = some r ∧ res[us.length - 2]? = some (x, C) ∧
      x.value = r.state.value ∧ Holds C r.cov := by
  classical
  obtain ⟨res, b1, b2, b3⟩ := C89_marginals A b Q hQ hn rnd cfg hs hit x0 t0 h0 P0 hP0 inputs meas us hperm hsort h2
    hfirst hr (fun y hy => ⟨(hm y hy).1, by
      obtain ⟨u, hu, h⟩ := (hm y hy).2
      exact ⟨u, hperm.mem_iff.1 (List.dropLast_subset _ hu), h⟩⟩)
  have hle : ∀ u ∈ us, t0 ≤ u.stamp := by
    cases us with
    | nil => simp
    | cons u us =>
      have h := hfirst u rfl
      intro v hv
      rcases List.mem_cons.1 hv with rfl | hv
      · exact h.symm.le
      · rw [← h]; exact ((List.pairwise_cons.1 hsort).1 v hv).le
  have hym : ∀ y ∈ meas, t0 ≤ y.stamp := fun y hy => by
    obtain ⟨u, hu, h⟩ := (hm y hy).2
    rw [← h]; exact hle u (List.dropLast_subset _ hu)
  have hus : retained StInp.stamp t0 inputs = us := by
    rw [retained_all _ _ _ fun u hu => hle u (hperm.mem_iff.2 hu), sort_eq hperm hsort]
  have hys : retained StMeas.stamp t0 meas = sortByStamp StMeas.stamp meas := retained_all _ _ _ hym
  have hyp : (sortByStamp StMeas.stamp meas).Perm meas := sortByStamp_perm _ _
  have hnd : (inputs.map StInp.stamp).Nodup := by
    refine (hperm.map StInp.stamp).nodup_iff.1 ?_
    rw [List.Nodup, List.pairwise_map]
    exact hsort.imp fun h => ne_of_lt h
  obtain ⟨rs, f1, f2, f3⟩ := C88_run_filter A b Q chi hQ ⟨x0, P0⟩ t0 hP0 h0 inputs meas
    (by
      cases hi : inputs with
      | nil => exact .inl rfl
      | cons u l => exact .inr ⟨u, by simp, hle u (hperm.mem_iff.2 (by rw [hi]; simp))⟩)
    (by
      cases hi : meas with
      | nil => exact .inl rfl
      | cons u l => exact .inr ⟨u, by simp, hym u (by rw [hi]; simp)⟩) hnd (fun y hy => (hm y hy).1)
  rw [hus, hys] at f2 f3
  cases us with
  | nil => simp at h2
  | cons u us =>
    cases us with
    | nil => simp at h2
    | cons u' us =>
      have hu0 : u.stamp = t0 := hfirst u rfl
      obtain ⟨pre, ul, tl, T, G, s1, s2, s3, s4, s5⟩ := schedule_cost A b Q chi hQ
        (ys := sortByStamp StMeas.stamp meas) us u u' 0 true hsort
        (fun _ y hy => by rw [hu0]; exact hym y (hyp.mem_iff.1 hy))
        (fun y hy _ => (hm y (hyp.mem_iff.1 hy)).2)
      have hlen : rs.length = us.length + 1 := by
        rw [f2, s1, recorded_append, s2]
        rfl
      have hlast : us.length < rs.length := by omega
      obtain ⟨pre', post, p1, p2, p3, c, p4⟩ := f3 us.length rs[us.length] (List.getElem?_eq_getElem hlast)
      rw [s1] at p1
      have hpp : pre = pre' := record_unique (post := [Ev.predict ul tl]) p1 (by rw [s2, p2])
      subst hpp
      have hk : us.length < res.length := by rw [b2]; simp only [List.length_cons]; omega
      obtain ⟨⟨x, C⟩, hx⟩ : ∃ p, res[us.length]? = some p := ⟨_, List.getElem?_eq_getElem hk⟩
      obtain ⟨-, G', g1, g2, c', g3⟩ := b3 _ x C hx
      have hobj : ∀ X : ℕ → Vec n, batchObjective A b Q x0.value P0 (u :: u' :: us) meas X =
          batchCost (linFilter A b Q chi) ⟨x0, P0⟩ 0 t0 pre X + mahal G (X (us.length + 1) - T (X us.length)) := by
        intro X
        have h5 := s5 X
        simp only [Nat.zero_add] at h5
        unfold batchObjective batchCost
        have e1 : (meas.map fun y => measTerm X (((u :: u' :: us).map StInp.stamp).idxOf y.stamp) y).sum =
            ((sortByStamp StMeas.stamp meas).map fun y => if u.stamp ≤ y.stamp then
              measTerm X (((u :: u' :: us).map StInp.stamp).idxOf y.stamp) y else 0).sum := by
          rw [← (hyp.map _).sum_eq]
          congr 1
          refine List.map_congr_left fun y hy => ?_
          rw [if_pos (by rw [hu0]; exact hym y (hyp.mem_iff.1 hy))]
        rw [e1, add_assoc, h5, hu0]
        ring
      have hidx : lastIdx 0 t0 pre = us.length := by
        rw [← hu0, s3, Nat.zero_add]
      rw [hidx] at p4
      have hmarg : ∀ v : Vec n, IsLeast {J | ∃ X : ℕ → Vec n, X us.length = v ∧
          J = batchObjective A b Q x0.value P0 (u :: u' :: us) meas X}
          (c + mahal (rs[us.length]).cov (v - (rs[us.length]).state.value)) := by
        intro v
        obtain ⟨⟨X, q1, q2⟩, q3⟩ := p4 v
        constructor
        · refine ⟨Function.update X (us.length + 1) (T v), ?_, ?_⟩
          · rw [Function.update_of_ne (by omega), q1]
          · rw [hobj, Function.update_self, Function.update_of_ne (by omega), q1, sub_self, mahal_zero, add_zero, q2]
            unfold batchCost
            rw [Function.update_of_ne (by omega)]
            congr 1
            refine chainCost_congr_le _ _ _ _ _ _ fun j hj => ?_
            rw [hidx] at hj
            rw [Function.update_of_ne (by omega)]
        · rintro J ⟨X', hX', rfl⟩
          have h1 := q3 ⟨X', hX', rfl⟩
          have h2 := mahal_nonneg s4 (X' (us.length + 1) - T (X' us.length))
          rw [hobj]
          linarith
      obtain ⟨w1, w2⟩ := marginal_unique g2 p3 (fun v => (g3 v).unique (hmarg v))
      refine ⟨rs, res, rs[us.length], x, C, f1, b1, b2, by simp [hlen], ?_, by simpa using hx, w1, ?_⟩
      · rw [List.getLast?_eq_getElem?, hlen, Nat.add_sub_cancel, List.getElem?_eq_getElem hlast]
      · rw [← w2]; exact g1

/-- A measurement of a scalar state at time 1. -/
noncomputable def exMeas90 : StMeas (Vec 1) 1 := ⟨linMeas (1 : Mat 1 1) 1 (fun _ => 3) (some 1), 1, rfl⟩

/-- The hypotheses of `C89_marginals` and `C90_filter_eq_batch` are met: a scalar state, three unsorted inputs, a
measurement at the second one. -/
example : ∃ rs res r x C, runFilter (ekfApi (linFilter (fun (_ : Inp (Vec 1)) _ => (1 : Mat 1 1))
      (fun u dt => dt • u.value) (fun _ dt => if 0 < dt then (1 : Mat 1 1) else 0) (fun _ => 0))) ⟨⟨0, some 0⟩, 1⟩
      [⟨1, 1⟩, ⟨1, 0⟩, ⟨0, 2⟩] [exMeas90] = .ok rs ∧
    batchSolve (vecStateOps 1) (linProcModel (fun (_ : Inp (Vec 1)) _ => (1 : Mat 1 1)) (fun u dt => dt • u.value)
      (fun _ dt => if 0 < dt then (1 : Mat 1 1) else 0)) id ⟨"GN", 5, none, none, none, 1⟩ ⟨0, some 0⟩ 1
      [⟨1, 1⟩, ⟨1, 0⟩, ⟨0, 2⟩] [exMeas90] = .ok res ∧ rs.getLast? = some r ∧ res[1]? = some (x, C) ∧
    x.value = r.state.value ∧ Holds C r.cov := by
  obtain ⟨rs, res, r, x, C, h1, h2, -, -, h3, h4, h5, h6⟩ := C90_filter_eq_batch (n := 1)
    (fun (_ : Inp (Vec 1)) _ => (1 : Mat 1 1)) (fun u dt => dt • u.value)
    (fun _ dt => if 0 < dt then (1 : Mat 1 1) else 0) (fun _ => 0)
    (fun u dt hdt => by simp only [if_pos hdt]; exact Matrix.PosDef.one) one_pos id ⟨"GN", 5, none, none, none, 1⟩ rfl
    (by decide) ⟨0, some 0⟩ 0 rfl 1 Matrix.PosDef.one [⟨1, 1⟩, ⟨1, 0⟩, ⟨0, 2⟩] [exMeas90]
    [⟨1, 0⟩, ⟨1, 1⟩, ⟨0, 2⟩] (List.Perm.swap _ _ _) (by norm_num) (by simp)
    (fun u hu => by
      simp only [List.head?_cons, Option.some.injEq] at hu
      rw [← hu]) (fun u _ => rfl)
    (fun y hy => by
      rw [List.mem_singleton.mp hy]
      exact ⟨⟨(1 : Mat 1 1), (1 : Mat 1 1), Matrix.PosDef.one, rfl⟩, ⟨1, 1⟩, by simp, rfl⟩)
  exact ⟨rs, res, r, x, C, h1, h2, h3, h4, h5, h6⟩

end Verif
