import Verif.Props.BatchFilter

/-!
C89: with linear models, `BatchEstimator.solve` returns the exact marginals of the batch problem.
-/

namespace Verif

set_option linter.unusedVariables false
set_option linter.unusedSectionVars false

open Matrix

variable {U : Type} {n : ℕ}

section spec

variable (A : Inp U → ℝ → Mat n n) (b : Inp U → ℝ → Vec n) (Q : Inp U → ℝ → Mat n n)

/-- Specification: the sum of the process terms of a trajectory `X`, where the states number `k`, `k + 1`, ... are at
the stamps of the inputs `us`. -/
noncomputable def procCost (X : ℕ → Vec n) : ℕ → List (StInp U) → ℝ
  | k, u :: u' :: us =>
    mahal (Q ⟨u.value, some u.stamp⟩ (u'.stamp - u.stamp))
      (X (k + 1) - (A ⟨u.value, some u.stamp⟩ (u'.stamp - u.stamp) *ᵥ X k
        + b ⟨u.value, some u.stamp⟩ (u'.stamp - u.stamp))) + procCost X (k + 1) (u' :: us)
  | _, _ => 0

open Classical in
/-- Specification: the batch objective (twice the negative log posterior, up to a constant) of a trajectory with one
state for each input of `us`: prior, process terms, and for each measurement its term on the state of its stamp. -/
noncomputable def batchObjective (x0 : Vec n) (P0 : Mat n n) (us : List (StInp U)) (meas : List (StMeas (Vec n) n))
    (X : ℕ → Vec n) : ℝ :=
  mahal P0 (X 0 - x0) + procCost A b Q X 0 us +
    (meas.map fun y => measTerm X ((us.map StInp.stamp).idxOf y.stamp) y).sum

end spec

/-! ### The factors of the graph -/

/-- The process factors between consecutive variables. -/
def procFactors {V : Type} : ℕ → List (StInp U) → List (BFactor V U n)
  | k, u :: u' :: us => .process k (k + 1) u :: procFactors (k + 1) (u' :: us)
  | _, _ => []

theorem sorted_index {stamps : List ℝ} (hs : stamps.Pairwise (· < ·)) {k k' : ℕ} {t : ℝ} (h : stamps[k]? = some t)
    (h' : stamps[k']? = some t) : k = k' := by
  have hn : stamps.Nodup := hs.imp fun h => ne_of_lt h
  have hk : k < stamps.length := by
    by_contra hc
    rw [List.getElem?_eq_none (by omega)] at h
    cases h
  exact (List.getElem?_inj hk hn).1 (h.trans h'.symm)

theorem batchProcess_idx {V : Type} {stamps : List ℝ} (hs : stamps.Pairwise (· < ·)) : ∀ (us : List (StInp U)) (k : ℕ)
    (ps : List (BFactor V U n)), stamps.drop k = us.map StInp.stamp → batchProcess stamps us = .ok ps →
      ps = procFactors k us
  | [], k, ps, hd, h => by
    simp only [batchProcess] at h
    cases h; rfl
  | [u], k, ps, hd, h => by
    simp only [batchProcess] at h
    cases h; rfl
  | u :: u' :: us, k, ps, hd, h => by
    simp only [batchProcess] at h
    obtain ⟨k1, h1, h⟩ := bind_ok h
    obtain ⟨k2, h2, h⟩ := bind_ok h
    obtain ⟨rest, h3, h⟩ := bind_ok h
    cases h
    have e1 : stamps[k]? = some u.stamp := by
      have := congrArg (fun l => l[0]?) hd
      simpa using this
    have e2 : stamps[k + 1]? = some u'.stamp := by
      have := congrArg (fun l => l[1]?) hd
      simpa using this
    have i1 := sorted_index hs ((findNearest_isNearest h1).exact (List.mem_of_getElem? e1)) e1
    have i2 := sorted_index hs ((findNearest_isNearest h2).exact (List.mem_of_getElem? e2)) e2
    have ih := batchProcess_idx hs (u' :: us) (k + 1) rest (by
      have := congrArg List.tail hd
      simpa using this) h3
    rw [i1, i2, ih]
    rfl

open Classical in
theorem batchMeas_idx {V : Type} {stamps : List ℝ} (hs : stamps.Pairwise (· < ·)) : ∀ (ys : List (StMeas V n))
    (ms : List (BFactor V U n)), (∀ y ∈ ys, y.stamp ∈ stamps) → batchMeas stamps ys = .ok ms →
      ms = ys.map fun y => .meas (stamps.idxOf y.stamp) y
  | [], ms, hd, h => by
    simp only [batchMeas] at h
    cases h; rfl
  | y :: ys, ms, hd, h => by
    simp only [batchMeas] at h
    obtain ⟨k1, h1, h⟩ := bind_ok h
    obtain ⟨rest, h3, h⟩ := bind_ok h
    cases h
    have hy := hd y (by simp)
    have i1 := sorted_index hs ((findNearest_isNearest h1).exact hy) (k' := stamps.idxOf y.stamp) (by
      rw [List.getElem?_eq_getElem (List.idxOf_lt_length_of_mem hy)]
      simp)
    rw [i1, batchMeas_idx hs ys rest (fun z hz => hd z (by simp [hz])) h3]
    rfl

variable (A : Inp U → ℝ → Mat n n) (b : Inp U → ℝ → Vec n) (Q : Inp U → ℝ → Mat n n)

theorem procFactors_cost (τ : ℕ → ℝ) (X : ℕ → Vec n) : ∀ (us : List (StInp U)) (k : ℕ),
    (∀ (i : ℕ) (u : StInp U), us[i]? = some u → τ (k + i) = u.stamp) →
    ((procFactors k us).map (factorCost A b Q τ X)).sum = procCost A b Q X k us
  | [], k, h => by simp [procFactors, procCost]
  | [u], k, h => by simp [procFactors, procCost]
  | u :: u' :: us, k, h => by
    have h0 := h 0 u rfl
    have h1 := h 1 u' rfl
    rw [Nat.add_zero] at h0
    have ih := procFactors_cost τ X (u' :: us) (k + 1) (fun i v hv => by
      have := h (i + 1) v (by simpa using hv)
      rw [← this]
      congr 1
      omega)
    unfold procFactors procCost
    rw [List.map_cons, List.sum_cons, ih]
    congr 1
    show mahal (Q _ (τ (k + 1) - τ k)) (X (k + 1) - (A _ (τ (k + 1) - τ k) *ᵥ X k + b _ (τ (k + 1) - τ k))) = _
    rw [h0, h1]

theorem procFactors_good (τ : ℕ → ℝ) (N : ℕ) : ∀ (us : List (StInp U)) (k : ℕ), k + us.length ≤ N →
    (∀ (i : ℕ) (u : StInp U), us[i]? = some u → τ (k + i) = u.stamp) → us.Pairwise (fun a c => a.stamp < c.stamp) →
    ∀ fac ∈ (procFactors k us : List (BFactor (Vec n) U n)), GoodFactor τ N fac
  | [], k, hN, h, hs => by simp [procFactors]
  | [u], k, hN, h, hs => by simp [procFactors]
  | u :: u' :: us, k, hN, h, hs => by
    have h0 := h 0 u rfl
    have h1 := h 1 u' rfl
    rw [Nat.add_zero] at h0
    have ih := procFactors_good τ N (u' :: us) (k + 1) (by simp at hN ⊢; omega) (fun i v hv => by
      have := h (i + 1) v (by simpa using hv)
      rw [← this]
      congr 1
      omega) (List.pairwise_cons.1 hs).2
    intro fac hfac
    unfold procFactors at hfac
    rcases List.mem_cons.1 hfac with rfl | hfac
    · simp only [List.length_cons] at hN
      refine ⟨by omega, by omega, ?_⟩
      rw [h0, h1]
      exact (List.pairwise_cons.1 hs).1 u' (by simp)
    · exact ih fac hfac

theorem factorCost_nonneg (hQ : ∀ u dt, 0 < dt → (Q u dt).PosDef) (τ : ℕ → ℝ) (N : ℕ) (X : ℕ → Vec n)
    (fac : BFactor (Vec n) U n) (h : GoodFactor τ N fac) : 0 ≤ factorCost A b Q τ X fac := by
  cases fac with
  | prior k x0 P0 => exact mahal_nonneg h.2 _
  | process k1 k2 u => exact mahal_nonneg (hQ _ _ (sub_pos.2 h.2.2)) _
  | meas k y =>
    obtain ⟨C, R, hR, hy⟩ := h.2
    show 0 ≤ measTerm X k y
    unfold measTerm
    rw [hy]
    exact mahal_nonneg hR _

theorem factor_le_sum (hQ : ∀ u dt, 0 < dt → (Q u dt).PosDef) (τ : ℕ → ℝ) (N : ℕ) (X : ℕ → Vec n) :
    ∀ (facs : List (BFactor (Vec n) U n)), (∀ fac ∈ facs, GoodFactor τ N fac) → ∀ fac ∈ facs,
      factorCost A b Q τ X fac ≤ (facs.map (factorCost A b Q τ X)).sum ∧ 0 ≤ (facs.map (factorCost A b Q τ X)).sum
  | [], h, fac, hf => by cases hf
  | f :: facs, h, fac, hf => by
    have h0 := factorCost_nonneg A b Q hQ τ N X f (h f (by simp))
    have hs : 0 ≤ (facs.map (factorCost A b Q τ X)).sum :=
      List.sum_nonneg fun r hr => by
        obtain ⟨q, hq, rfl⟩ := List.mem_map.1 hr
        exact factorCost_nonneg A b Q hQ τ N X q (h q (by simp [hq]))
    rw [List.map_cons, List.sum_cons]
    rcases List.mem_cons.1 hf with rfl | hf
    · exact ⟨by linarith, by linarith⟩
    · have := (factor_le_sum hQ τ N X facs (fun q hq => h q (by simp [hq])) fac hf).1
      exact ⟨by linarith, by linarith⟩

/-- A chain of process factors carries a zero direction forward. -/
theorem chain_zero (hQ : ∀ u dt, 0 < dt → (Q u dt).PosDef) (τ : ℕ → ℝ) {X0 D : ℕ → Vec n} {K : ℝ} :
    ∀ (us : List (StInp U)) (k : ℕ), (∀ (i : ℕ) (u : StInp U), us[i]? = some u → τ (k + i) = u.stamp) →
      us.Pairwise (fun a c => a.stamp < c.stamp) →
      (∀ fac ∈ (procFactors k us : List (BFactor (Vec n) U n)), ∀ s : ℝ,
        factorCost A b Q τ (fun k => X0 k + s • D k) fac ≤ K) →
      D k = 0 → ∀ i < us.length, D (k + i) = 0
  | [], k, h, hs, hK, h0, i, hi => by simp at hi
  | [u], k, h, hs, hK, h0, i, hi => by
    have : i = 0 := by simpa using hi
    rw [this]
    exact h0
  | u :: u' :: us, k, h, hs, hK, h0, i, hi => by
    have t0 := h 0 u rfl
    have t1 := h 1 u' rfl
    rw [Nat.add_zero] at t0
    cases i with
    | zero => exact h0
    | succ i =>
      have hp : D (k + 1) = 0 := by
        have hlt : u.stamp < u'.stamp := (List.pairwise_cons.1 hs).1 u' (by simp)
        refine mahal_bounded (hQ ⟨u.value, some u.stamp⟩ (u'.stamp - u.stamp) (sub_pos.2 hlt)) (K := K)
          (c := X0 (k + 1) - (A ⟨u.value, some u.stamp⟩ (u'.stamp - u.stamp) *ᵥ X0 k
            + b ⟨u.value, some u.stamp⟩ (u'.stamp - u.stamp))) fun s => ?_
        have := hK (.process k (k + 1) u) (by unfold procFactors; simp) s
        have e : factorCost A b Q τ (fun k => X0 k + s • D k) (.process k (k + 1) u) =
            mahal (Q ⟨u.value, some u.stamp⟩ (u'.stamp - u.stamp)) (s • D (k + 1) + (X0 (k + 1) -
              (A ⟨u.value, some u.stamp⟩ (u'.stamp - u.stamp) *ᵥ X0 k
              + b ⟨u.value, some u.stamp⟩ (u'.stamp - u.stamp)))) := by
          show mahal (Q _ (τ (k + 1) - τ k)) (X0 (k + 1) + s • D (k + 1) -
            (A _ (τ (k + 1) - τ k) *ᵥ (X0 k + s • D k) + b _ (τ (k + 1) - τ k))) = _
          rw [t0, t1, h0, smul_zero, add_zero]
          congr 1
          abel
        rw [e] at this
        exact this
      have ih := chain_zero hQ τ (u' :: us) (k + 1) (fun i v hv => by
        have := h (i + 1) v (by simpa using hv)
        rw [← this]
        congr 1
        omega) (List.pairwise_cons.1 hs).2 (fun fac hf s => hK fac (by unfold procFactors; simp [hf]) s) hp i
        (by simpa using hi)
      rw [show k + (i + 1) = k + 1 + i by omega]
      exact ih

/-! ### The data used -/

theorem batchUsed_all {α : Type} (stamp : α → ℝ) (t0 : ℝ) (l : List α) (h : ∀ a ∈ l, t0 ≤ stamp a) :
    batchUsed stamp t0 l = sortByStamp stamp l := by
  classical
  unfold batchUsed dropBefore
  split
  · rw [dropWhile_sorted stamp (sortByStamp_sorted stamp l)]
    refine List.filter_eq_self.2 fun a ha => ?_
    simpa using h a ((sortByStamp_mem stamp).1 ha)
  · rfl

theorem sort_eq {us inputs : List (StInp U)} (hp : us.Perm inputs) (hs : us.Pairwise (fun a c => a.stamp < c.stamp)) :
    sortByStamp StInp.stamp inputs = us := by
  have hn : (us.map StInp.stamp).Nodup := by
    rw [List.Nodup, List.pairwise_map]
    exact hs.imp fun h => ne_of_lt h
  have h1 : (sortByStamp StInp.stamp inputs).Perm us := (sortByStamp_perm StInp.stamp inputs).trans hp.symm
  refine List.Perm.eq_of_pairwise (le := fun a c : StInp U => a.stamp ≤ c.stamp) (fun a c ha hc hac hca => ?_)
    (sortByStamp_sorted StInp.stamp inputs) (hs.imp fun h => le_of_lt h) h1
  exact List.inj_on_of_nodup_map hn (h1.mem_iff.1 ha) hc (le_antisymm hac hca)

theorem stamps_eq {V : Type} {rnd : ℝ → ℝ} {us : List (StInp U)} {ys : List (StMeas V n)}
    (hs : us.Pairwise (fun a c => a.stamp < c.stamp)) (hr : ∀ u ∈ us, rnd u.stamp = u.stamp)
    (hm : ∀ y ∈ ys, ∃ u ∈ us, u.stamp = y.stamp) : batchStamps rnd us ys = us.map StInp.stamp := by
  have h1 : (batchStamps rnd us ys).Pairwise (· < ·) := npUnique_sorted _
  have h2 : (us.map StInp.stamp).Pairwise (· < ·) := by rw [List.pairwise_map]; exact hs
  refine List.Perm.eq_of_pairwise (le := (· < ·)) (fun a b _ _ h1 h2 => absurd h1 (lt_asymm h2)) h1 h2 ?_
  rw [List.perm_ext_iff_of_nodup (h1.imp fun h => ne_of_lt h) (h2.imp fun h => ne_of_lt h)]
  intro t
  rw [mem_batchStamps]
  constructor
  · rintro (⟨u, hu, rfl⟩ | ⟨y, hy, rfl⟩)
    · rw [hr u hu]; exact List.mem_map.2 ⟨u, hu, rfl⟩
    · obtain ⟨u, hu, h⟩ := hm y hy
      rw [← h, hr u hu]; exact List.mem_map.2 ⟨u, hu, rfl⟩
  · intro ht
    obtain ⟨u, hu, rfl⟩ := List.mem_map.1 ht
    exact .inl ⟨u, hu, hr u hu⟩

/-- **C89.** Linear models, positive definite covariances, inputs with distinct stamps that begin at the stamp of the
prior, measurements at stamps of inputs: `BatchEstimator.solve` with Gauss-Newton does not raise; it returns one
estimate for each input, in time order, with the stamp of the input; its state and its covariance are mean and
covariance of the marginal of the batch objective at that time. -/
theorem C89_marginals (hQ : ∀ u dt, 0 < dt → (Q u dt).PosDef) (hn : 0 < n) (rnd : ℝ → ℝ) (cfg : ProbCfg)
    (hs : cfg.solver = "GN") (hit : 0 < cfg.maxIters) (x0 : St (Vec n)) (t0 : ℝ) (h0 : x0.stamp = some t0)
    (P0 : Mat n n) (hP0 : P0.PosDef) (inputs : List (StInp U)) (meas : List (StMeas (Vec n) n))
    (us : List (StInp U)) (hperm : us.Perm inputs) (hsort : us.Pairwise (fun a c => a.stamp < c.stamp))
    (h2 : 2 ≤ us.length) (hfirst : ∀ u, us.head? = some u → u.stamp = t0)
    (hr : ∀ u ∈ inputs, rnd u.stamp = u.stamp)
    (hm : ∀ y ∈ meas, LinearMeas y ∧ ∃ u ∈ inputs, u.stamp = y.stamp) :
    ∃ res, batchSolve (vecStateOps n) (linProcModel A b Q) rnd cfg x0 P0 inputs meas = .ok res ∧
      res.length = us.length ∧
      ∀ (k : ℕ) (x : St (Vec n)) (C : DMat), res[k]? = some (x, C) →
        (∃ u, us[k]? = some u ∧ x.stamp = some u.stamp) ∧
        ∃ G, Holds C G ∧ MarginalAt (batchObjective A b Q x0.value P0 us meas) k x.value G := by
  classical
  have hf : KeepsStamp (linProcModel A b Q) := fun x u dt => rfl
  have hle : ∀ u ∈ us, t0 ≤ u.stamp := by
    cases us with
    | nil => simp
    | cons u us =>
      have h := hfirst u rfl
      intro v hv
      rcases List.mem_cons.1 hv with rfl | hv
      · exact h.symm.le
      · rw [← h]; exact ((List.pairwise_cons.1 hsort).1 v hv).le
  have hru : ∀ u ∈ us, rnd u.stamp = u.stamp := fun u hu => hr u (hperm.mem_iff.1 hu)
  have hus : batchUsed StInp.stamp t0 inputs = us := by
    rw [batchUsed_all _ _ _ fun u hu => hle u (hperm.mem_iff.2 hu), sort_eq hperm hsort]
  have hmu : ∀ y ∈ meas, ∃ u ∈ us, u.stamp = y.stamp := fun y hy => by
    obtain ⟨u, hu, h⟩ := (hm y hy).2
    exact ⟨u, hperm.mem_iff.2 hu, h⟩
  have hys : batchUsed StMeas.stamp t0 meas = sortByStamp StMeas.stamp meas :=
    batchUsed_all _ _ _ fun y hy => by
      obtain ⟨u, hu, h⟩ := hmu y hy
      rw [← h]; exact hle u hu
  set ys := sortByStamp StMeas.stamp meas with hysd
  have hyp : ys.Perm meas := sortByStamp_perm _ _
  have hym : ∀ y ∈ ys, ∃ u ∈ us, u.stamp = y.stamp := fun y hy => hmu y (hyp.mem_iff.1 hy)
  have hst : batchStamps rnd us ys = us.map StInp.stamp := stamps_eq hsort hru hym
  have hss : (us.map StInp.stamp).Pairwise (· < ·) := by rw [List.pairwise_map]; exact hsort
  have hrs : us.map (fun u => rnd u.stamp) = us.map StInp.stamp := List.map_congr_left fun u hu => hru u hu
  obtain ⟨g, hg⟩ := C46_succeeds (linProcModel A b Q) hf rnd x0 t0 h0 P0 inputs meas us hus.symm ys hys.symm h2
    (by rw [hrs]; exact hss)
    ⟨fun u hu => by rw [hru u hu]; exact hle u hu, fun y hy => by
      obtain ⟨u, hu, h⟩ := hym y hy
      rw [← h, hru u hu]; exact hle u hu⟩
    (fun y hy => by
      obtain ⟨u, hu, h⟩ := hym y hy
      exact ⟨u, hu, by rw [h]⟩)
  obtain ⟨s0, ss, xs, ps, ms, g1, g2, g3, g4, rfl⟩ := batchGraph_parts h0 hg
  rw [hus, hys, hst] at g1
  rw [hus] at g3 g2
  rw [hys] at g4
  rw [← g1] at g3 g4
  have hstamps := batchPropagate_stamps hf h0 g2
  have hlen : xs.length = ss.length := by simpa using congrArg List.length hstamps
  have hN : (x0 :: xs).length = us.length := by
    have := congrArg List.length g1
    simp only [List.length_map, List.length_cons] at this ⊢
    omega
  have hps := batchProcess_idx hss us 0 ps (by simp) g3
  have hms := batchMeas_idx hss ys ms (fun y hy => by
    obtain ⟨u, hu, h⟩ := hym y hy
    exact List.mem_map.2 ⟨u, hu, h⟩) g4
  let τ : ℕ → ℝ := fun k => (us.map StInp.stamp).getD k 0
  have hτ : ∀ (i : ℕ) (u : StInp U), us[i]? = some u → τ (0 + i) = u.stamp := by
    intro i u hu
    show (us.map StInp.stamp).getD (0 + i) 0 = _
    rw [Nat.zero_add, List.getD_eq_getElem?_getD, List.getElem?_map, hu]
    rfl
  have hs0 : s0 = t0 := by
    cases us with
    | nil => simp at g1
    | cons u us =>
      simp only [List.map_cons, List.cons.injEq] at g1
      rw [← g1.1]; exact hfirst u rfl
  have hvst : ∀ (k : ℕ) (x : St (Vec n)), (x0 :: xs)[k]? = some x → x.stamp = some (τ k) := by
    intro k x hk
    have e : ((x0 :: xs).map St.stamp)[k]? = ((s0 :: ss).map some)[k]? := by
      rw [List.map_cons, List.map_cons, hstamps, h0, hs0]
    rw [← g1, List.getElem?_map, hk, List.getElem?_map] at e
    show x.stamp = some ((us.map StInp.stamp).getD k 0)
    rw [List.getD_eq_getElem?_getD]
    cases hc : (us.map StInp.stamp)[k]? with
    | none => rw [hc] at e; cases e
    | some t => rw [hc] at e; simpa using e
  have hgood : ∀ fac ∈ (.prior 0 x0.value P0 :: ps ++ ms : List (BFactor (Vec n) U n)),
      GoodFactor τ (x0 :: xs).length fac := by
    intro fac hfac
    rw [hN]
    simp only [List.cons_append, List.mem_cons, List.mem_append] at hfac
    rcases hfac with rfl | hfac | hfac
    · exact ⟨by omega, hP0⟩
    · rw [hps] at hfac
      exact procFactors_good τ us.length us 0 (by omega) hτ hsort fac hfac
    · rw [hms] at hfac
      obtain ⟨y, hy, rfl⟩ := List.mem_map.1 hfac
      obtain ⟨u, hu, h⟩ := hym y hy
      refine ⟨?_, (hm y (hyp.mem_iff.1 hy)).1⟩
      have := List.idxOf_lt_length_of_mem (List.mem_map.2 ⟨u, hu, h⟩ : y.stamp ∈ us.map StInp.stamp)
      simpa using this
  have hobj : ∀ X : ℕ → Vec n, ((.prior 0 x0.value P0 :: ps ++ ms : List (BFactor (Vec n) U n)).map
      (factorCost A b Q τ X)).sum = batchObjective A b Q x0.value P0 us meas X := by
    intro X
    rw [List.map_append, List.map_cons, List.sum_append, List.sum_cons, hps, procFactors_cost A b Q τ X us 0 hτ, hms,
      List.map_map]
    unfold batchObjective
    congr 1
    exact (hyp.map _).sum_eq
  obtain ⟨P, P', res, r1, r2, r3, r4, r5⟩ := graph_marginals A b Q hQ τ cfg hs hit hn
    ⟨x0 :: xs, .prior 0 x0.value P0 :: ps ++ ms⟩ (by simp) hvst hgood (by
      rintro X0 D ⟨K, hK⟩ k hk
      have hKf : ∀ fac ∈ (.prior 0 x0.value P0 :: ps ++ ms : List (BFactor (Vec n) U n)), ∀ s : ℝ,
          factorCost A b Q τ (fun k => X0 k + s • D k) fac ≤ K := fun fac hfac s =>
        ((factor_le_sum A b Q hQ τ _ _ _ hgood fac hfac).1).trans (hK s)
      have hD0 : D 0 = 0 := by
        refine mahal_bounded hP0 (c := X0 0 - x0.value) (K := K) fun s => ?_
        have := hKf (.prior 0 x0.value P0) (by simp) s
        have e : factorCost A b Q τ (fun k => X0 k + s • D k) (.prior 0 x0.value P0) =
            mahal P0 (s • D 0 + (X0 0 - x0.value)) := by
          show mahal P0 (X0 0 + s • D 0 - x0.value) = _
          congr 1
          abel
        rw [e] at this
        exact this
      have := chain_zero A b Q hQ τ us 0 hτ hsort (fun fac hfac s => hKf fac (by rw [hps]; simp [hfac]) s) hD0 k
        (by rw [← hN]; exact hk)
      rwa [Nat.zero_add] at this)
  refine ⟨res, ?_, by rw [r4]; exact hN, fun k x C hk => ?_⟩
  · unfold batchSolve
    rw [hg]
    show (BatchGraph.problem (vecStateOps n) (linProcModel A b Q) cfg _ >>= _) = _
    rw [r1]
    show (P.solve (vecStateOps n).varOps >>= _) = _
    rw [r2]
    exact r3
  · obtain ⟨w1, G, w2, w3⟩ := r5 k x C hk
    have hkN : k < us.length := by
      have : k < res.length := by
        by_contra hc
        rw [List.getElem?_eq_none (by omega)] at hk
        cases hk
      rw [r4] at this
      exact lt_of_lt_of_eq this hN
    refine ⟨⟨us[k], List.getElem?_eq_getElem hkN, ?_⟩, G, w2, ?_⟩
    · rw [w1, ← hτ k us[k] (List.getElem?_eq_getElem hkN), Nat.zero_add]
    · have : (fun X : ℕ → Vec n => ((.prior 0 x0.value P0 :: ps ++ ms : List (BFactor (Vec n) U n)).map
        (factorCost A b Q τ X)).sum) = batchObjective A b Q x0.value P0 us meas := funext hobj
      rw [← this]
      exact w3

end Verif
