import Verif.Lemmas.GaussMarkov

/-!
C121: a linear system with white noise of the modelled covariances. What `BatchEstimator.solve` returns at every time is the best
estimate given all the data, the covariance it returns is that of its error, and with Gaussian noise the two are the posterior
distribution of the state given all the data.
-/

set_option linter.unusedSectionVars false
set_option linter.unusedVariables false

namespace Verif

open Matrix MeasureTheory ProbabilityTheory

variable {Ω : Type} {n : ℕ} {U : Type}

/-! ### Specification: the noises in a batch problem -/

/-- The process noises between the consecutive inputs `us`. -/
def stepNoises (A : Inp U → ℝ → Mat n n) (b : Inp U → ℝ → Vec n) (Q : Inp U → ℝ → Mat n n) (X : ℝ → Ω → Vec n) :
    List (StInp U) → List (Noise Ω)
  | u :: u' :: us => procNoise A b Q X u u.stamp u'.stamp :: stepNoises A b Q X (u' :: us)
  | _ => []

/-- The noises of a batch problem: the error of the prior, the process noises, the noises of the measurements. -/
def batchNoises (A : Inp U → ℝ → Mat n n) (b : Inp U → ℝ → Vec n) (Q : Inp U → ℝ → Mat n n) (X : ℝ → Ω → Vec n) (x0 : Vec n) (t0 : ℝ)
    (P0 : Mat n n) (us : List (StInp U)) (meas : List (RMeas Ω n)) : List (Noise Ω) :=
  ⟨n, fun ω => X t0 ω - x0, P0⟩ :: (stepNoises A b Q X us ++ meas.map fun y => measNoise X y.stamp y)

/-! ### The terms of the objective -/

section terms
variable (A : Inp U → ℝ → Mat n n) (b : Inp U → ℝ → Vec n) (Q : Inp U → ℝ → Mat n n)

/-- The state number `k` of a trajectory. -/
def compAt (k : ℕ) : (ℕ → Vec n) →ₗ[ℝ] Vec n := LinearMap.proj (φ := fun _ : ℕ => Vec n) k

def priorTerm (x0 : Vec n) (P0 : Mat n n) : LTerm Ω n := ⟨n, compAt 0, P0, fun _ => x0⟩

noncomputable def procTerms : ℕ → List (StInp U) → List (LTerm Ω n)
  | k, u :: u' :: us =>
    ⟨n, compAt (k + 1) - (Matrix.mulVecLin (A ⟨u.value, some u.stamp⟩ (u'.stamp - u.stamp))).comp (compAt k),
      Q ⟨u.value, some u.stamp⟩ (u'.stamp - u.stamp), fun _ => b ⟨u.value, some u.stamp⟩ (u'.stamp - u.stamp)⟩
      :: procTerms (k + 1) (u' :: us)
  | _, _ => []

open Classical in
noncomputable def measTerms (us : List (StInp U)) (y : RMeas Ω n) : LTerm Ω n :=
  ⟨y.m, -(Matrix.mulVecLin y.C).comp (compAt ((us.map StInp.stamp).idxOf y.stamp)), y.R, fun ω => -y.value ω⟩

noncomputable def batchTerms (x0 : Vec n) (P0 : Mat n n) (us : List (StInp U)) (meas : List (RMeas Ω n)) : List (LTerm Ω n) :=
  priorTerm x0 P0 :: (procTerms A b Q 0 us ++ meas.map (measTerms us))

/-- The truth at the stamps of the inputs. -/
def stepTruth (X : ℝ → Ω → Vec n) (us : List (StInp U)) (ω : Ω) (k : ℕ) : Vec n := X ((us.map StInp.stamp).getD k 0) ω

theorem procTerms_noise (X : ℝ → Ω → Vec n) (Z : Ω → ℕ → Vec n) : ∀ (us : List (StInp U)) (k : ℕ),
    (∀ (i : ℕ) (u : StInp U), us[i]? = some u → ∀ ω, Z ω (k + i) = X u.stamp ω) →
    (procTerms A b Q k us).map (fun T => T.noise Z) = stepNoises A b Q X us
  | [], k, h => rfl
  | [u], k, h => rfl
  | u :: u' :: us, k, h => by
    have h0 := h 0 u rfl
    have h1 := h 1 u' rfl
    have ih := procTerms_noise X Z (u' :: us) (k + 1) (fun i v hv ω => by
      have := h (i + 1) v (by simpa using hv) ω
      rw [← this]
      congr 1
      omega)
    unfold procTerms stepNoises
    rw [List.map_cons, ih]
    congr 1
    show (⟨n, _, _⟩ : Noise Ω) = ⟨n, _, _⟩
    congr 1
    funext ω
    show Z ω (k + 1) - A _ _ *ᵥ Z ω k - b _ _ = _
    rw [h1 ω, show Z ω k = X u.stamp ω from h0 ω, sub_sub]

theorem procTerms_cost (ω : Ω) (X : ℕ → Vec n) : ∀ (us : List (StInp U)) (k : ℕ),
    quadObj (procTerms A b Q k us) ω X = procCost A b Q X k us
  | [], k => by simp [quadObj, procTerms, procCost]
  | [u], k => by simp [quadObj, procTerms, procCost]
  | u :: u' :: us, k => by
    have ih := procTerms_cost ω X (u' :: us) (k + 1)
    unfold quadObj at ih ⊢
    unfold procTerms procCost
    rw [List.map_cons, List.sum_cons, ih]
    congr 1
    show mahal _ (X (k + 1) - A _ _ *ᵥ X k - b _ _) = _
    rw [sub_sub]

theorem procTerms_pd (hQ : ∀ u dt, 0 < dt → (Q u dt).PosDef) : ∀ (us : List (StInp U)) (k : ℕ), us.Pairwise (fun a c => a.stamp < c.stamp) →
    ∀ T ∈ (procTerms A b Q k us : List (LTerm Ω n)), T.S.PosDef
  | [], k, hs => by simp [procTerms]
  | [u], k, hs => by simp [procTerms]
  | u :: u' :: us, k, hs => by
    have ih := procTerms_pd hQ (u' :: us) (k + 1) (List.pairwise_cons.1 hs).2
    unfold procTerms
    intro T hT
    rcases List.mem_cons.1 hT with rfl | hT
    · exact hQ _ _ (sub_pos.2 ((List.pairwise_cons.1 hs).1 u' (by simp)))
    · exact ih T hT

theorem measTerm_at (X : ℕ → Vec n) (k : ℕ) (y : RMeas Ω n) (ω : Ω) :
    measTerm X k (y.at ω) = mahal y.R (y.value ω - y.C *ᵥ X k) := rfl

theorem batch_obj (x0 : Vec n) (P0 : Mat n n) (us : List (StInp U)) (meas : List (RMeas Ω n)) (ω : Ω) :
    batchObjective A b Q x0 P0 us (meas.map (·.at ω)) = quadObj (batchTerms A b Q x0 P0 us meas) ω := by
  classical
  funext X
  have h := procTerms_cost A b Q ω X us 0
  unfold quadObj at h ⊢
  unfold batchObjective batchTerms
  rw [List.map_cons, List.sum_cons, List.map_append, List.sum_append, h, List.map_map, List.map_map, add_assoc]
  congr 2
  congr 1
  refine List.map_congr_left fun y hy => ?_
  show measTerm X _ (y.at ω) = mahal y.R (-(y.C *ᵥ X _) - -y.value ω)
  rw [measTerm_at]
  congr 1
  rw [sub_neg_eq_add, neg_add_eq_sub]
  rfl

theorem truth_idx {X : ℝ → Ω → Vec n} {us : List (StInp U)} {i : ℕ} {u : StInp U} (h : us[i]? = some u) (ω : Ω) :
    stepTruth X us ω i = X u.stamp ω := by
  unfold stepTruth
  rw [List.getD_eq_getElem?_getD, List.getElem?_map, h]
  rfl

open Classical in
theorem truth_meas {X : ℝ → Ω → Vec n} {us : List (StInp U)} {t : ℝ} (h : ∃ u ∈ us, u.stamp = t) (ω : Ω) :
    stepTruth X us ω ((us.map StInp.stamp).idxOf t) = X t ω := by
  obtain ⟨u, hu, hut⟩ := h
  have hm : t ∈ us.map StInp.stamp := List.mem_map.2 ⟨u, hu, hut⟩
  unfold stepTruth
  rw [List.getD_eq_getElem?_getD, List.getElem?_eq_getElem (List.idxOf_lt_length_of_mem hm)]
  simp

theorem batch_noise {X : ℝ → Ω → Vec n} {x0 : Vec n} {t0 : ℝ} {P0 : Mat n n} {us : List (StInp U)} {meas : List (RMeas Ω n)}
    (hfirst : ∃ u, us.head? = some u ∧ u.stamp = t0) (hm : ∀ y ∈ meas, ∃ u ∈ us, u.stamp = y.stamp) :
    (batchTerms A b Q x0 P0 us meas).map (fun T => T.noise (stepTruth X us)) = batchNoises A b Q X x0 t0 P0 us meas := by
  classical
  obtain ⟨u0, hu0, ht0⟩ := hfirst
  have h0 : us[0]? = some u0 := by rw [← List.head?_eq_getElem?]; exact hu0
  unfold batchTerms batchNoises
  rw [List.map_cons, List.map_append, procTerms_noise A b Q X (stepTruth X us) us 0 (fun i u hu ω => by
    rw [Nat.zero_add]; exact truth_idx hu ω), List.map_map]
  congr 1
  · show (⟨n, fun ω => stepTruth X us ω 0 - x0, P0⟩ : Noise Ω) = ⟨n, _, P0⟩
    congr 1
    funext ω
    rw [truth_idx h0 ω, ht0]
  · congr 1
    refine List.map_congr_left fun y hy => ?_
    show (⟨y.m, fun ω => -(y.C *ᵥ stepTruth X us ω ((us.map StInp.stamp).idxOf y.stamp)) - -y.value ω, y.R⟩ : Noise Ω) = ⟨y.m, _, y.R⟩
    congr 1
    funext ω
    rw [truth_meas (hm y hy) ω, sub_neg_eq_add, neg_add_eq_sub]

/-! ### Random data -/

variable [MeasurableSpace Ω] {μ : Measure Ω}

/-- Along the chain of the process terms a space that contains the noises contains the truth. -/
theorem truth_mem {X : ℝ → Ω → Vec n} {G : Submodule ℝ (Ω → ℝ)} (h1 : (fun _ => (1 : ℝ)) ∈ G) : ∀ (us : List (StInp U)),
    (∀ u, us.head? = some u → ∀ i, (fun ω => X u.stamp ω i) ∈ G) →
    (∀ η ∈ stepNoises A b Q X us, ∀ j, (fun ω => η.val ω j) ∈ G) → ∀ u ∈ us, ∀ i, (fun ω => X u.stamp ω i) ∈ G
  | [], h0, hn, u, hu => by cases hu
  | [u'], h0, hn, u, hu => by
    rw [List.mem_singleton.1 hu]
    exact h0 u' rfl
  | u' :: u'' :: us, h0, hn, u, hu => by
    rcases List.mem_cons.1 hu with rfl | hu
    · exact h0 u rfl
    · unfold stepNoises at hn
      refine truth_mem h1 (u'' :: us) (fun v hv => ?_) (fun η hη => hn η (by simp [hη])) u hu
      have : v = u'' := (Option.some.inj hv).symm
      subst this
      exact mem_proc A b Q X h1 (h0 u' rfl) (hn (procNoise A b Q X u' u'.stamp v.stamp) (by simp))

/-- Square integrable numbers. -/
def sqSpace (μ : Measure Ω) : Submodule ℝ (Ω → ℝ) where
  carrier := {g | MemLp g 2 μ}
  add_mem' h h' := MemLp.add h h'
  zero_mem' := MemLp.zero
  smul_mem' c _ h := MemLp.const_smul h c

theorem cross_const [IsProbabilityMeasure μ] {m k : ℕ} {V : Ω → Vec m} (h0 : rvMean μ V = 0) (c : Vec k) :
    rvCross μ V (fun _ => c) = 0 := by
  ext i j
  show ∫ ω, V ω i * c j ∂μ = 0
  rw [integral_mul_const, show ∫ ω, V ω i ∂μ = 0 from congrFun h0 i, zero_mul]

/-- The correlations of the score `V` with the truth, from those with the noises. -/
theorem chain_cross [IsProbabilityMeasure μ] {X : ℝ → Ω → Vec n} {Z : Ω → ℕ → Vec n} {V : Ω → Vec n} (hV : SqInt μ V) (hV0 : rvMean μ V = 0)
    (D : Fin n → ℕ → Vec n) : ∀ (us : List (StInp U)) (k : ℕ),
    (∀ i < us.length, SqInt μ (fun ω => Z ω (k + i))) →
    (∀ T ∈ (procTerms A b Q k us : List (LTerm Ω n)), ∀ i, (fun j => rvCross μ V (fun ω => T.B (Z ω) - T.d ω) i j) = T.B (D i)) →
    (∀ i, (fun j => rvCross μ V (fun ω => Z ω k) i j) = D i k) →
    ∀ l < us.length, ∀ i, (fun j => rvCross μ V (fun ω => Z ω (k + l)) i j) = D i (k + l)
  | [], k, hs, hT, h0, l, hl => by simp at hl
  | [u], k, hs, hT, h0, l, hl => by
    have : l = 0 := by simpa using hl
    subst this
    exact h0
  | u :: u' :: us, k, hs, hT, h0, l, hl => by
    cases l with
    | zero => exact h0
    | succ l =>
      unfold procTerms at hT
      have hT0 := hT _ (List.mem_cons_self ..)
      have s0 : SqInt μ (fun ω => Z ω k) := hs 0 (by simp)
      have s1 : SqInt μ (fun ω => Z ω (k + 1)) := hs 1 (by simp)
      have h1 : ∀ i, (fun j => rvCross μ V (fun ω => Z ω (k + 1)) i j) = D i (k + 1) := by
        intro i
        have a : (fun j => rvCross μ V (fun ω => Z ω (k + 1) - A ⟨u.value, some u.stamp⟩ (u'.stamp - u.stamp) *ᵥ Z ω k
            - b ⟨u.value, some u.stamp⟩ (u'.stamp - u.stamp)) i j)
            = D i (k + 1) - A ⟨u.value, some u.stamp⟩ (u'.stamp - u.stamp) *ᵥ D i k := hT0 i
        rw [rvCross_sub_right (s1.sub (s0.mulVec _)) (SqInt.const _) hV, cross_const hV0, sub_zero,
          rvCross_sub_right s1 (s0.mulVec _) hV, rvCross_mulVec_right s0 hV] at a
        have c : (fun j => (rvCross μ V (fun ω => Z ω k) * (A ⟨u.value, some u.stamp⟩ (u'.stamp - u.stamp))ᵀ) i j)
            = A ⟨u.value, some u.stamp⟩ (u'.stamp - u.stamp) *ᵥ D i k := by
          rw [← h0 i]
          funext j
          rw [mul_apply]
          exact Finset.sum_congr rfl fun p _ => mul_comm _ _
        have e : (fun j => rvCross μ V (fun ω => Z ω (k + 1)) i j)
            = (fun j => (rvCross μ V (fun ω => Z ω (k + 1))
              - rvCross μ V (fun ω => Z ω k) * (A ⟨u.value, some u.stamp⟩ (u'.stamp - u.stamp))ᵀ) i j)
              + fun j => (rvCross μ V (fun ω => Z ω k) * (A ⟨u.value, some u.stamp⟩ (u'.stamp - u.stamp))ᵀ) i j := by
          funext j
          simp
        rw [e, a, c]
        abel
      have := chain_cross (X := X) (Z := Z) hV hV0 D (u' :: us) (k + 1) (fun i hi => by
        have := hs (i + 1) (by simpa using hi)
        rwa [show k + (i + 1) = k + 1 + i by omega] at this) (fun T hT' => hT T (List.mem_cons_of_mem _ hT')) h1 l (by simpa using hl)
      rw [show k + (l + 1) = k + 1 + l by omega]
      exact this

theorem combine_mem {ts : List (LTerm Ω n)} {Z : Ω → ℕ → Vec n} {G : Submodule ℝ (Ω → ℝ)}
    (h : ∀ T ∈ ts, ∀ j, (fun ω => (T.B (Z ω) - T.d ω) j) ∈ G) {q : ℕ} (W : (T : LTerm Ω n) → Mat q T.m) (i : Fin q) :
    (fun ω => combine ts Z W ω i) ∈ G := by
  induction ts with
  | nil =>
    have e : (fun ω => combine ([] : List (LTerm Ω n)) Z W ω i) = 0 := by funext ω; simp [combine]
    rw [e]
    exact G.zero_mem
  | cons T ts ih =>
    have e : (fun ω => combine (T :: ts) Z W ω i) = (fun ω => (W T *ᵥ (T.B (Z ω) - T.d ω)) i) + fun ω => combine ts Z W ω i := by
      funext ω
      simp [combine]
    rw [e]
    exact G.add_mem (mem_mulVec (h T (by simp)) (W T) i) (ih fun T' h' => h T' (by simp [h']))

theorem data_mem {ts : List (LTerm Ω n)} {G : Submodule ℝ (Ω → ℝ)}
    (h : ∀ T ∈ ts, ∀ j, (fun ω => T.d ω j) ∈ G) {q : ℕ} (W : (T : LTerm Ω n) → Mat q T.m) (i : Fin q) :
    (fun ω => (ts.map fun T => W T *ᵥ T.d ω).sum i) ∈ G := by
  induction ts with
  | nil =>
    have e : (fun ω => (([] : List (LTerm Ω n)).map fun T => W T *ᵥ T.d ω).sum i) = 0 := by funext ω; simp
    rw [e]
    exact G.zero_mem
  | cons T ts ih =>
    have e : (fun ω => ((T :: ts).map fun T => W T *ᵥ T.d ω).sum i) = (fun ω => (W T *ᵥ T.d ω) i) + fun ω => (ts.map fun T => W T *ᵥ T.d ω).sum i := by
      funext ω
      simp
    rw [e]
    exact G.add_mem (mem_mulVec (h T (by simp)) (W T) i) (ih fun T' h' => h T' (by simp [h']))

theorem const_mem {G : Submodule ℝ (Ω → ℝ)} (h1 : (fun _ => (1 : ℝ)) ∈ G) (c : ℝ) : (fun _ : Ω => c) ∈ G := by
  have e : (fun _ : Ω => c) = c • fun _ : Ω => (1 : ℝ) := by funext ω; simp
  rw [e]
  exact G.smul_mem _ h1

theorem procTerms_d {G : Submodule ℝ (Ω → ℝ)} (h1 : (fun _ => (1 : ℝ)) ∈ G) : ∀ (us : List (StInp U)) (k : ℕ),
    ∀ T ∈ (procTerms A b Q k us : List (LTerm Ω n)), ∀ j, (fun ω => T.d ω j) ∈ G
  | [], k => by simp [procTerms]
  | [u], k => by simp [procTerms]
  | u :: u' :: us, k => by
    have ih := procTerms_d h1 (u' :: us) (k + 1)
    unfold procTerms
    intro T hT
    rcases List.mem_cons.1 hT with rfl | hT
    · exact fun j => const_mem h1 _
    · exact ih T hT

open Classical in
theorem batch_projected [IsProbabilityMeasure μ] (hQ : ∀ u dt, 0 < dt → (Q u dt).PosDef) {X : ℝ → Ω → Vec n} {x0 : Vec n} {t0 : ℝ}
    {P0 : Mat n n} (hP0 : P0.PosDef) {us : List (StInp U)} {meas : List (RMeas Ω n)} (hsort : us.Pairwise (fun a c => a.stamp < c.stamp))
    (hfirst : ∃ u, us.head? = some u ∧ u.stamp = t0) (hm : ∀ y ∈ meas, y.R.PosDef ∧ ∃ u ∈ us, u.stamp = y.stamp)
    (hw : White μ CovRel.exact (batchNoises A b Q X x0 t0 P0 us meas)) {k : ℕ} {u : StInp U} (hk : us[k]? = some u) {x : Ω → Vec n}
    {G : Mat n n} (h : ∀ ω, MarginalAt (batchObjective A b Q x0 P0 us (meas.map (·.at ω))) k (x ω) G) (hne : Nonempty Ω) :
    Projected μ X (dataSpan meas) (fun ω => ⟨⟨x ω, some u.stamp⟩, G⟩) u.stamp G ∧
    ∀ S : Submodule ℝ (Ω → ℝ), (fun _ => (1 : ℝ)) ∈ S → (∀ η ∈ batchNoises A b Q X x0 t0 P0 us meas, ∀ j, (fun ω => η.val ω j) ∈ S) →
      dataSpan meas ≤ S ∧ ∀ i, (fun ω => (X u.stamp ω - x ω) i) ∈ S := by
  have hm' : ∀ y ∈ meas, ∃ u ∈ us, u.stamp = y.stamp := fun y hy => (hm y hy).2
  have hnoise := batch_noise A b Q (X := X) (x0 := x0) (P0 := P0) hfirst hm'
  have hS : ∀ T ∈ batchTerms A b Q x0 P0 us meas, T.S.PosDef := by
    intro T hT
    unfold batchTerms at hT
    rcases List.mem_cons.1 hT with rfl | hT
    · exact hP0
    · rcases List.mem_append.1 hT with hT | hT
      · exact procTerms_pd A b Q hQ us 0 hsort T hT
      · obtain ⟨y, hy, rfl⟩ := List.mem_map.1 hT
        exact (hm y hy).1
  have hG := (h hne.some).1
  have hw' := hw
  rw [← hnoise] at hw'
  have hZk : ∀ ω, stepTruth X us ω k = X u.stamp ω := truth_idx hk
  obtain ⟨D, d1, d2, d3, d4, d5, d6, d7, d8⟩ := gauss_markov hS (stepTruth X us) hw' (k := k) (x := x) (G := G)
    (fun ω => by rw [← batch_obj]; exact h ω) hne
  simp only [hZk] at d1 d5 d6 d7
  have hmem : ∀ S : Submodule ℝ (Ω → ℝ), (fun _ => (1 : ℝ)) ∈ S →
      (∀ η ∈ batchNoises A b Q X x0 t0 P0 us meas, ∀ j, (fun ω => η.val ω j) ∈ S) →
      (∀ v ∈ us, ∀ i, (fun ω => X v.stamp ω i) ∈ S) ∧ ∀ y ∈ meas, ∀ j, (fun ω => y.value ω j) ∈ S := by
    intro S h1 hn
    have a := truth_mem A b Q (X := X) h1 us (fun v hv i => by
      obtain ⟨u0, e1, e2⟩ := hfirst
      have : v = u0 := Option.some.inj (hv.symm.trans e1)
      subst this
      rw [e2]
      have e : (fun ω => X t0 ω i) = (fun ω => (X t0 ω - x0) i) + fun _ => x0 i := by
        funext ω; simp
      rw [e]
      exact S.add_mem (hn ⟨n, fun ω => X t0 ω - x0, P0⟩ (by unfold batchNoises; simp) i) (const_mem h1 _))
      (fun η hη => hn η (by unfold batchNoises; simp [hη]))
    refine ⟨a, fun y hy => ?_⟩
    obtain ⟨v, hv, e⟩ := hm' y hy
    have a' := a v hv
    rw [e] at a'
    exact mem_meas X a' (hn (measNoise X y.stamp y) (by
      unfold batchNoises
      simp only [List.mem_cons, List.mem_append, List.mem_map]
      exact .inr (.inr ⟨y, hy, rfl⟩)))
  have hdata : ∀ S : Submodule ℝ (Ω → ℝ), (fun _ => (1 : ℝ)) ∈ S → (∀ y ∈ meas, ∀ j, (fun ω => y.value ω j) ∈ S) → dataSpan meas ≤ S := by
    intro S h1 hy
    unfold dataSpan
    rw [Submodule.span_le]
    rintro g (rfl | ⟨y, hy', j, rfl⟩)
    · exact h1
    · exact hy y hy' j
  have hx : ∀ i, (fun ω => x ω i) ∈ dataSpan meas := by
    intro i
    have h1 : (fun _ => (1 : ℝ)) ∈ dataSpan meas := Submodule.subset_span (.inl rfl)
    have e : (fun ω => x ω i) = fun ω => (G *ᵥ ((batchTerms A b Q x0 P0 us meas).map fun T => scoreW D T *ᵥ T.d ω).sum) i := by
      funext ω; rw [← d2 ω]
    rw [e]
    refine mem_mulVec (fun j => data_mem ?_ _ j) G i
    intro T hT
    unfold batchTerms at hT
    rcases List.mem_cons.1 hT with rfl | hT
    · exact fun j => const_mem h1 _
    · rcases List.mem_append.1 hT with hT | hT
      · exact procTerms_d A b Q h1 us 0 T hT
      · obtain ⟨y, hy, rfl⟩ := List.mem_map.1 hT
        intro j
        have : (fun ω => y.value ω j) ∈ dataSpan meas := Submodule.subset_span (.inr ⟨y, hy, j, rfl⟩)
        exact Submodule.neg_mem _ this
  have hsq := hmem (sqSpace μ) (memLp_const _) (fun η hη j => hw.sq η hη j)
  -- correlations of the score with the truth
  have hZsq : ∀ l < us.length, SqInt μ (fun ω => stepTruth X us ω l) := by
    intro l hl
    have hl' := List.getElem?_eq_getElem hl
    have e : (fun ω => stepTruth X us ω l) = fun ω => X us[l].stamp ω := funext fun ω => truth_idx hl' ω
    rw [e]
    exact fun i => hsq.1 us[l] (List.getElem_mem hl) i
  have hlen : 0 < us.length := by
    obtain ⟨u0, e1, -⟩ := hfirst
    cases us with
    | nil => cases e1
    | cons => simp
  have hchain := chain_cross A b Q (X := X) (Z := stepTruth X us) d3 d4 D us 0 (fun i hi => by rw [Nat.zero_add]; exact hZsq i hi)
    (fun T hT => d8 T (by unfold batchTerms; simp [hT])) (fun i => by
      have := d8 (priorTerm x0 P0) (by unfold batchTerms; simp) i
      have a : (fun j => rvCross μ (combine (batchTerms A b Q x0 P0 us meas) (stepTruth X us) (scoreW D))
        (fun ω => stepTruth X us ω 0 - x0) i j) = D i 0 := this
      rw [rvCross_sub_right (hZsq 0 hlen) (SqInt.const _) d3, cross_const d4, sub_zero] at a
      exact a)
  have hy0 : ∀ y ∈ meas, rvCross μ (combine (batchTerms A b Q x0 P0 us meas) (stepTruth X us) (scoreW D)) y.value = 0 := by
    intro y hy
    have hyl : (us.map StInp.stamp).idxOf y.stamp < us.length := by
      obtain ⟨v, hv, e⟩ := hm' y hy
      have := List.idxOf_lt_length_of_mem (List.mem_map.2 ⟨v, hv, e⟩ : y.stamp ∈ us.map StInp.stamp)
      simpa using this
    have hys : SqInt μ y.value := fun j => hsq.2 y hy j
    have hZ := hZsq _ hyl
    ext i j
    have := congrFun (d8 (measTerms us y) (by
      unfold batchTerms
      simp only [List.mem_cons, List.mem_append, List.mem_map]
      exact .inr (.inr ⟨y, hy, rfl⟩)) i) j
    have a : rvCross μ (combine (batchTerms A b Q x0 P0 us meas) (stepTruth X us) (scoreW D))
        (fun ω => -(y.C *ᵥ stepTruth X us ω ((us.map StInp.stamp).idxOf y.stamp)) - -y.value ω) i j
        = (-(y.C *ᵥ D i ((us.map StInp.stamp).idxOf y.stamp))) j := this
    have e : (fun ω => -(y.C *ᵥ stepTruth X us ω ((us.map StInp.stamp).idxOf y.stamp)) - -y.value ω)
        = fun ω => y.value ω - y.C *ᵥ stepTruth X us ω ((us.map StInp.stamp).idxOf y.stamp) := by
      funext ω; rw [sub_neg_eq_add, neg_add_eq_sub]
    have c := hchain _ hyl i
    rw [Nat.zero_add] at c
    rw [e, rvCross_sub_right hys (hZ.mulVec _) d3, rvCross_mulVec_right hZ d3, ← c] at a
    have q : (rvCross μ (combine (batchTerms A b Q x0 P0 us meas) (stepTruth X us) (scoreW D))
        (fun ω => stepTruth X us ω ((us.map StInp.stamp).idxOf y.stamp)) * y.Cᵀ) i j
        = (y.C *ᵥ fun j => rvCross μ (combine (batchTerms A b Q x0 P0 us meas) (stepTruth X us) (scoreW D))
        (fun ω => stepTruth X us ω ((us.map StInp.stamp).idxOf y.stamp)) i j) j := by
      rw [mul_apply]
      exact Finset.sum_congr rfl fun p _ => mul_comm _ _
    rw [Matrix.sub_apply, q, Pi.neg_apply] at a
    show _ = (0 : ℝ)
    linarith
  have herr : (fun ω => X u.stamp ω - x ω) = fun ω => G *ᵥ combine (batchTerms A b Q x0 P0 us meas) (stepTruth X us) (scoreW D) ω := funext d1
  refine ⟨⟨⟨fun _ => rfl, fun _ => rfl, hG.posSemidef, d5, d6, d7⟩, hx, ?_⟩, fun S h1 hn => ?_⟩
  · refine hdata _ ⟨memLp_const _, fun i => ?_⟩ fun y hy j => ⟨hsq.2 y hy j, fun i => ?_⟩
    · simp only [mul_one]
      exact congrFun d6 i
    · have hys : SqInt μ y.value := fun j => hsq.2 y hy j
      have : rvCross μ (fun ω => X u.stamp ω - x ω) y.value = 0 := by
        rw [herr, rvCross_mulVec_left d3 hys, hy0 y hy, Matrix.mul_zero]
      exact congrFun (congrFun this i) j
  · have hall := hmem S h1 hn
    have hd := hdata S h1 hall.2
    refine ⟨hd, fun i => ?_⟩
    exact S.sub_mem (hall.1 u (List.mem_of_getElem? hk) i) (hd (hx i))

end terms

/-! ### `BatchEstimator.solve` -/

section solve
variable [MeasurableSpace Ω] {μ : Measure Ω} [IsProbabilityMeasure μ]
variable (A : Inp U → ℝ → Mat n n) (b : Inp U → ℝ → Vec n) (Q : Inp U → ℝ → Mat n n) (X : ℝ → Ω → Vec n)

/-- The estimates `rs`, in the outcome `ω`, are the states and covariances of the list `res` that `solve` returns. -/
def Returned (rs : List (Ω → SWC (Vec n) n)) (ω : Ω) (res : List (St (Vec n) × DMat)) : Prop :=
  List.Forall₂ (fun r p => p.1 = (r ω).state ∧ Holds p.2 (r ω).cov) rs res

/-- The estimates of a batch problem as random variables. -/
theorem batch_random (hQ : ∀ u dt, 0 < dt → (Q u dt).PosDef) (hn : 0 < n) (rnd : ℝ → ℝ) (cfg : ProbCfg)
    (hs : cfg.solver = "GN") (hit : 0 < cfg.maxIters) (x0 : Vec n) (t0 : ℝ) (P0 : Mat n n) (hP0 : P0.PosDef)
    (inputs us : List (StInp U)) (meas : List (RMeas Ω n)) (hperm : us.Perm inputs) (hsort : us.Pairwise (fun a c => a.stamp < c.stamp))
    (h2 : 2 ≤ us.length) (hfirst : ∀ u, us.head? = some u → u.stamp = t0) (hr : ∀ u ∈ inputs, rnd u.stamp = u.stamp)
    (hm : ∀ y ∈ meas, y.R.PosDef ∧ ∃ u ∈ inputs, u.stamp = y.stamp) :
    ∃ rs : List (Ω → SWC (Vec n) n),
      (∀ ω, ∃ res, batchSolve (vecStateOps n) (linProcModel A b Q) rnd cfg ⟨x0, some t0⟩ P0 inputs (meas.map (·.at ω)) = .ok res ∧
        Returned rs ω res) ∧
      rs.length = us.length ∧
      ∀ (k : ℕ) (r : Ω → SWC (Vec n) n), rs[k]? = some r → ∃ (u : StInp U) (x : Ω → Vec n) (P : Mat n n), us[k]? = some u ∧
        r = (fun ω => ⟨⟨x ω, some u.stamp⟩, P⟩) ∧ ∀ ω, MarginalAt (batchObjective A b Q x0 P0 us (meas.map (·.at ω))) k (x ω) P := by
  have hall := fun ω => C89_marginals A b Q hQ hn rnd cfg hs hit ⟨x0, some t0⟩ t0 rfl P0 hP0 inputs (meas.map (·.at ω)) us hperm hsort h2 hfirst hr
    (fun y hy => by
      obtain ⟨y', hy', rfl⟩ := List.mem_map.1 hy
      exact ⟨⟨y'.C, y'.R, (hm y' hy').1, rfl⟩, (hm y' hy').2⟩)
  choose res r1 r2 r3 using hall
  have hS : ∀ T ∈ batchTerms A b Q x0 P0 us meas, T.S.PosDef := by
    intro T hT
    unfold batchTerms at hT
    rcases List.mem_cons.1 hT with rfl | hT
    · exact hP0
    · rcases List.mem_append.1 hT with hT | hT
      · exact procTerms_pd A b Q hQ us 0 hsort T hT
      · obtain ⟨y, hy, rfl⟩ := List.mem_map.1 hT
        exact (hm y hy).1
  have hget : ∀ (ω : Ω) (k : Fin us.length), ∃ (x : Vec n) (C : DMat) (G : Mat n n), (res ω)[k.1]? = some (⟨x, some us[k].stamp⟩, C) ∧ Holds C G ∧
      MarginalAt (batchObjective A b Q x0 P0 us (meas.map (·.at ω))) k x G := by
    intro ω k
    have hk : k.1 < (res ω).length := by rw [r2 ω]; exact k.2
    obtain ⟨⟨x, C⟩, hp⟩ : ∃ p, (res ω)[k.1]? = some p := ⟨_, List.getElem?_eq_getElem hk⟩
    obtain ⟨⟨u, hu, hx⟩, G, hC, hM⟩ := r3 ω k.1 x C hp
    refine ⟨x.value, C, G, ?_, hC, hM⟩
    have e : us[k] = u := by
      have := List.getElem?_eq_getElem k.2
      rw [hu] at this
      exact (Option.some.inj this).symm
    rw [hp, e, ← hx]
  choose x C G g1 g2 g3 using hget
  refine ⟨List.ofFn fun (k : Fin us.length) ω => ⟨⟨x ω k, some us[k].stamp⟩, G ω k⟩, fun ω => ⟨res ω, r1 ω, ?_⟩, by simp, fun k r hk => ?_⟩
  · unfold Returned
    rw [List.forall₂_iff_get]
    refine ⟨by rw [List.length_ofFn, r2 ω], fun i h1 h2 => ?_⟩
    rw [List.length_ofFn] at h1
    have := g1 ω ⟨i, h1⟩
    rw [List.getElem?_eq_getElem h2] at this
    have e := Option.some.inj this
    simp only [List.get_eq_getElem, List.getElem_ofFn]
    rw [e]
    exact ⟨rfl, g2 ω ⟨i, h1⟩⟩
  · have hk' : k < us.length := by
      by_contra hc
      rw [List.getElem?_eq_none (by rw [List.length_ofFn]; omega)] at hk
      cases hk
    rw [List.getElem?_ofFn, dif_pos hk'] at hk
    have hr := Option.some.inj hk
    by_cases hne : Nonempty Ω
    · refine ⟨us[k], fun ω => x ω ⟨k, hk'⟩, G hne.some ⟨k, hk'⟩, List.getElem?_eq_getElem hk', ?_, fun ω => ?_⟩
      · rw [← hr]
        funext ω
        have : G ω ⟨k, hk'⟩ = G hne.some ⟨k, hk'⟩ := by
          have a := g3 ω ⟨k, hk'⟩
          have c := g3 hne.some ⟨k, hk'⟩
          rw [batch_obj] at a c
          exact marginal_const hS a c
        rw [this]
        rfl
      · have : G ω ⟨k, hk'⟩ = G hne.some ⟨k, hk'⟩ := by
          have a := g3 ω ⟨k, hk'⟩
          have c := g3 hne.some ⟨k, hk'⟩
          rw [batch_obj] at a c
          exact marginal_const hS a c
        rw [← this]
        exact g3 ω ⟨k, hk'⟩
    · refine ⟨us[k], fun ω => x ω ⟨k, hk'⟩, 0, List.getElem?_eq_getElem hk', ?_, fun ω => absurd ⟨ω⟩ hne⟩
      funext ω
      exact absurd ⟨ω⟩ hne

/-- C121: linear models, white noise of the modelled covariances, inputs with distinct stamps from the stamp of the prior on, measurements
at stamps of inputs. `BatchEstimator.solve` does not raise; the error of every state it returns has mean zero, the covariance it returns
is the covariance of that error, the state is an affine function of the measurements, and no affine function of any of the measurements
has a smaller error covariance. -/
theorem C121_smoother (hQ : ∀ u dt, 0 < dt → (Q u dt).PosDef) (hn : 0 < n) (rnd : ℝ → ℝ) (cfg : ProbCfg)
    (hs : cfg.solver = "GN") (hit : 0 < cfg.maxIters) (x0 : Vec n) (t0 : ℝ) (P0 : Mat n n) (hP0 : P0.PosDef)
    (inputs us : List (StInp U)) (meas : List (RMeas Ω n)) (hperm : us.Perm inputs) (hsort : us.Pairwise (fun a c => a.stamp < c.stamp))
    (h2 : 2 ≤ us.length) (hfirst : ∀ u, us.head? = some u → u.stamp = t0) (hr : ∀ u ∈ inputs, rnd u.stamp = u.stamp)
    (hm : ∀ y ∈ meas, y.R.PosDef ∧ ∃ u ∈ inputs, u.stamp = y.stamp)
    (hw : White μ CovRel.exact (batchNoises A b Q X x0 t0 P0 us meas)) :
    ∃ rs : List (Ω → SWC (Vec n) n),
      (∀ ω, ∃ res, batchSolve (vecStateOps n) (linProcModel A b Q) rnd cfg ⟨x0, some t0⟩ P0 inputs (meas.map (·.at ω)) = .ok res ∧
        Returned rs ω res) ∧
      rs.length = us.length ∧
      ∀ (k : ℕ) (r : Ω → SWC (Vec n) n), rs[k]? = some r → ∃ (u : StInp U) (P : Mat n n), us[k]? = some u ∧ P.PosDef ∧
        Honest μ CovRel.exact X r u.stamp P ∧ AffineIn meas (fun ω => (r ω).state.value) ∧
        ∀ (ys : List (RMeas Ω n)) (Z : Ω → Vec n), ys ⊆ meas → AffineIn ys Z →
          (rvCross μ (fun ω => X u.stamp ω - Z ω) (fun ω => X u.stamp ω - Z ω) - P).PosSemidef := by
  obtain ⟨rs, h1, h2', h3⟩ := batch_random A b Q hQ hn rnd cfg hs hit x0 t0 P0 hP0 inputs us meas hperm hsort h2 hfirst hr hm
  refine ⟨rs, h1, h2', fun k r hk => ?_⟩
  obtain ⟨u, x, P, g1, rfl, g3⟩ := h3 k r hk
  have hne : Nonempty Ω := nonempty_of_isProbabilityMeasure μ
  obtain ⟨hp, -⟩ := batch_projected A b Q hQ hP0 hsort (by
      cases us with
      | nil => simp at h2
      | cons v us => exact ⟨v, rfl, hfirst v rfl⟩)
    (fun y hy => ⟨(hm y hy).1, by
      obtain ⟨v, hv, e⟩ := (hm y hy).2
      exact ⟨v, hperm.mem_iff.2 hv, e⟩⟩) hw g1 g3 hne
  refine ⟨u, P, g1, (g3 hne.some).1, hp.honest, hp.mem, fun ys Z hys hZ => projected_best X hp fun i => ?_⟩
  refine Submodule.span_mono ?_ (hZ i)
  rintro g (hg | ⟨y, hy, j, rfl⟩)
  · exact .inl hg
  · exact .inr ⟨y, hys hy, j, rfl⟩

/-- C121: if the noise is jointly Gaussian too, the state and covariance returned for every time describe the distribution of the state at
that time given all the measurements. -/
theorem C121_posterior (hQ : ∀ u dt, 0 < dt → (Q u dt).PosDef) (hn : 0 < n) (rnd : ℝ → ℝ) (cfg : ProbCfg)
    (hs : cfg.solver = "GN") (hit : 0 < cfg.maxIters) (x0 : Vec n) (t0 : ℝ) (P0 : Mat n n) (hP0 : P0.PosDef)
    (inputs us : List (StInp U)) (meas : List (RMeas Ω n)) (hperm : us.Perm inputs) (hsort : us.Pairwise (fun a c => a.stamp < c.stamp))
    (h2 : 2 ≤ us.length) (hfirst : ∀ u, us.head? = some u → u.stamp = t0) (hr : ∀ u ∈ inputs, rnd u.stamp = u.stamp)
    (hm : ∀ y ∈ meas, y.R.PosDef ∧ ∃ u ∈ inputs, u.stamp = y.stamp)
    (hw : White μ CovRel.exact (batchNoises A b Q X x0 t0 P0 us meas)) (hg : JointlyGaussian μ (batchNoises A b Q X x0 t0 P0 us meas)) :
    ∃ rs : List (Ω → SWC (Vec n) n),
      (∀ ω, ∃ res, batchSolve (vecStateOps n) (linProcModel A b Q) rnd cfg ⟨x0, some t0⟩ P0 inputs (meas.map (·.at ω)) = .ok res ∧
        Returned rs ω res) ∧
      rs.length = us.length ∧
      ∀ (k : ℕ) (r : Ω → SWC (Vec n) n), rs[k]? = some r → ∃ (u : StInp U) (P : Mat n n), us[k]? = some u ∧ P.PosDef ∧
        Posterior μ X meas r u.stamp P := by
  obtain ⟨rs, h1, h2', h3⟩ := batch_random A b Q hQ hn rnd cfg hs hit x0 t0 P0 hP0 inputs us meas hperm hsort h2 hfirst hr hm
  refine ⟨rs, h1, h2', fun k r hk => ?_⟩
  obtain ⟨u, x, P, g1, rfl, g3⟩ := h3 k r hk
  have hne : Nonempty Ω := nonempty_of_isProbabilityMeasure μ
  obtain ⟨hp, hS⟩ := batch_projected A b Q hQ hP0 hsort (by
      cases us with
      | nil => simp at h2
      | cons v us => exact ⟨v, rfl, hfirst v rfl⟩)
    (fun y hy => ⟨(hm y hy).1, by
      obtain ⟨v, hv, e⟩ := (hm y hy).2
      exact ⟨v, hperm.mem_iff.2 hv, e⟩⟩) hw g1 g3 hne
  have hG := noiseSpace_gauss hg
  obtain ⟨hD, he⟩ := hS (noiseSpace (batchNoises A b Q X x0 t0 P0 us meas)) (noiseSpace_one _) fun η hη j => noiseSpace_mem hη j
  refine ⟨u, P, g1, (g3 hne.some).1, hp.honest, hp.mem,
    aemeasurable_pi_lambda _ fun p => (hG _ (hD (dataSpan_mem _ p))).aemeasurable, gauss_law hG he hp.honest.mean hp.honest.error, ?_⟩
  exact gauss_indep hG (Z := fun i ω => (X u.stamp ω - x ω) i) (W := fun p ω => dataVec meas ω p) he
    (fun p => hD (dataSpan_mem _ p)) (fun i => congrFun hp.honest.mean i) (fun i p => (hp.orth (dataSpan_mem _ p)).2 i)

/-- C121: smoothing is not worse than filtering. An honest estimate at the same time that is an affine function of some of the measurements,
such as the one `run_filter` reports (C106), has a covariance at least as large as the batch estimate. -/
theorem C121_beats_filter {r r' : Ω → SWC (Vec n) n} {t : ℝ} {P P' : Mat n n} {meas ys : List (RMeas Ω n)}
    (h : ∀ (ys : List (RMeas Ω n)) (Z : Ω → Vec n), ys ⊆ meas → AffineIn ys Z →
      (rvCross μ (fun ω => X t ω - Z ω) (fun ω => X t ω - Z ω) - P).PosSemidef)
    (h' : Honest μ CovRel.exact X r' t P') (ha : AffineIn ys (fun ω => (r' ω).state.value)) (hys : ys ⊆ meas) : (P' - P).PosSemidef := by
  have := h ys _ hys ha
  rwa [show rvCross μ (fun ω => X t ω - (r' ω).state.value) (fun ω => X t ω - (r' ω).state.value) = P' from h'.error] at this

end solve

/-! ### A concrete log: the random walk of C117, with inputs at `0`, `1/2` and `1` -/

noncomputable def walkSteps : List (StInp Unit) := [⟨(), 0⟩, ⟨(), 1 / 2⟩, ⟨(), 1⟩]

theorem walk_batch_noises : batchNoises (U := Unit) (fun _ _ => 1) (fun _ _ => 0) (fun _ _ => 1) walkTruth 0 0 1 walkSteps [walkMeas]
    = [⟨1, fun ω _ => ω 0, 1⟩, ⟨1, fun ω _ => ω 1, 1⟩, ⟨1, fun ω _ => ω 2, 1⟩, ⟨1, fun ω _ => ω 3, 1⟩] := by
  have e0 : (fun ω => walkTruth 0 ω - 0) = fun ω (_ : Fin 1) => ω 0 := by
    funext ω i
    have h1 : ¬ (1 / 2 : ℝ) ≤ 0 := by norm_num
    have h2 : ¬ (1 : ℝ) ≤ 0 := by norm_num
    simp only [walkTruth, if_neg h1, if_neg h2, sub_zero, add_zero]
  have e1 : procNoise (fun _ _ => 1) (fun _ _ => 0) (fun _ _ => 1) walkTruth (⟨(), 0⟩ : StInp Unit) 0 (1 / 2)
      = ⟨1, fun ω _ => ω 1, 1⟩ := by
    unfold procNoise
    congr 1
    funext ω i
    have h1 : ¬ (1 / 2 : ℝ) ≤ 0 := by norm_num
    have h2 : ¬ (1 : ℝ) ≤ 0 := by norm_num
    have h3 : ¬ (1 : ℝ) ≤ 1 / 2 := by norm_num
    show (ω 0 + (if (1 / 2 : ℝ) ≤ 1 / 2 then ω 1 else 0) + (if (1 : ℝ) ≤ 1 / 2 then ω 2 else 0))
      - (((1 : Mat 1 1) *ᵥ walkTruth 0 ω) i + 0) = _
    rw [one_mulVec]
    simp only [walkTruth, if_neg h1, if_neg h2, if_neg h3, if_pos (le_refl _)]
    ring
  have e2 : procNoise (fun _ _ => 1) (fun _ _ => 0) (fun _ _ => 1) walkTruth (⟨(), 1 / 2⟩ : StInp Unit) (1 / 2) 1
      = ⟨1, fun ω _ => ω 2, 1⟩ := by
    unfold procNoise
    congr 1
    funext ω i
    have h1 : (1 / 2 : ℝ) ≤ 1 := by norm_num
    have h3 : ¬ (1 : ℝ) ≤ 1 / 2 := by norm_num
    show (ω 0 + (if (1 / 2 : ℝ) ≤ 1 then ω 1 else 0) + (if (1 : ℝ) ≤ 1 then ω 2 else 0))
      - (((1 : Mat 1 1) *ᵥ walkTruth (1 / 2) ω) i + 0) = _
    rw [one_mulVec]
    simp only [walkTruth, if_pos h1, if_neg h3, if_pos (le_refl _)]
    ring
  have e3 : measNoise walkTruth (1 / 2) walkMeas = ⟨1, fun ω _ => ω 3, 1⟩ := by
    unfold measNoise
    show (⟨1, fun ω => ((fun _ => ω 0 + ω 1 + ω 3) : Vec 1) - (1 : Mat 1 1) *ᵥ walkTruth (1 / 2) ω, 1⟩ : Noise _) = _
    congr 1
    funext ω i
    have h3 : ¬ (1 : ℝ) ≤ 1 / 2 := by norm_num
    show (ω 0 + ω 1 + ω 3) - ((1 : Mat 1 1) *ᵥ walkTruth (1 / 2) ω) i = _
    rw [one_mulVec]
    simp only [walkTruth, if_neg h3, if_pos (le_refl _)]
    ring
  show (⟨1, fun ω => walkTruth 0 ω - 0, 1⟩ : Noise (Vec 4)) :: ([procNoise _ _ _ _ _ 0 (1 / 2), procNoise _ _ _ _ _ (1 / 2) 1] ++
    [measNoise walkTruth (1 / 2) walkMeas]) = _
  rw [e0, e1, e2, e3]
  rfl

/-- The noises are those of the log of C117 in another order. -/
theorem walk_batch_perm : (batchNoises (U := Unit) (fun _ _ => 1) (fun _ _ => 0) (fun _ _ => 1) walkTruth 0 0 1 walkSteps [walkMeas]).Perm walkNoises := by
  rw [walk_batch_noises, walkNoises_eq]
  exact ((List.Perm.swap _ _ []).cons _).cons _

theorem walk_batch_gauss : JointlyGaussian (normal (1 : Mat 4 4))
    (batchNoises (U := Unit) (fun _ _ => 1) (fun _ _ => 0) (fun _ _ => 1) walkTruth 0 0 1 walkSteps [walkMeas]) := by
  intro g hg
  refine walk_gauss g (Submodule.span_mono ?_ hg)
  rintro g ⟨η, hη, j, rfl⟩
  exact ⟨η, walk_batch_perm.mem_iff.1 hη, j, rfl⟩

theorem walk_batch_white : White (normal (1 : Mat 4 4)) CovRel.exact
    (batchNoises (U := Unit) (fun _ _ => 1) (fun _ _ => 0) (fun _ _ => 1) walkTruth 0 0 1 walkSteps [walkMeas]) := by
  refine ⟨fun η hη => walk_white.sq η (walk_batch_perm.mem_iff.1 hη), fun η hη => walk_white.mean η (walk_batch_perm.mem_iff.1 hη),
    fun η hη => walk_white.cov η (walk_batch_perm.mem_iff.1 hη), ?_⟩
  exact walk_batch_perm.symm.pairwise walk_white.uncorr fun {η ζ} h => by rw [rvCross_symm, h, transpose_zero]

/-- The hypotheses of C121 hold for it: the batch estimate of the state at time `0`, before the measurement, has a chi-square NEES. -/
example : ∃ rs : List (Vec 4 → SWC (Vec 1) 1), (∀ ω, ∃ res,
      batchSolve (vecStateOps 1) (linProcModel (U := Unit) (fun _ _ => 1) (fun _ _ => 0) (fun _ _ => 1)) id ⟨"GN", 1, none, none, none, 1⟩ ⟨0, some 0⟩ 1 walkSteps
        ([walkMeas].map (·.at ω)) = .ok res ∧ Returned rs ω res) ∧
    ∃ (r : Vec 4 → SWC (Vec 1) 1) (g : Vec 4 → GResult (Vec 1) 1), rs[0]? = some r ∧ (∀ ω, gaussianResult (vecStateOps 1) (r ω).state (r ω).cov (walkTruth 0 ω) = .ok (g ω)) ∧
      (normal (1 : Mat 4 4)).map (fun ω => (g ω).nees) = chi2 1 := by
  obtain ⟨rs, h1, h2, h3⟩ := C121_posterior (U := Unit) (μ := normal (1 : Mat 4 4)) (fun _ _ => 1) (fun _ _ => 0) (fun _ _ => 1) walkTruth
    (fun _ _ _ => PosDef.one) one_pos id ⟨"GN", 1, none, none, none, 1⟩ rfl (by norm_num) 0 0 1 PosDef.one walkSteps walkSteps [walkMeas] (List.Perm.refl _)
    (by simp [walkSteps]; norm_num) (by simp [walkSteps]) (by rintro u hu; cases hu; rfl) (fun _ _ => rfl)
    (fun y hy => by
      rw [List.mem_singleton.1 hy]
      exact ⟨PosDef.one, ⟨(), 1 / 2⟩, by simp [walkSteps], rfl⟩) walk_batch_white walk_batch_gauss
  refine ⟨rs, h1, ?_⟩
  have hl : 0 < rs.length := by rw [h2]; simp [walkSteps]
  obtain ⟨u, P, g1, g2, g3⟩ := h3 0 rs[0] (List.getElem?_eq_getElem hl)
  have hu : u.stamp = 0 := by cases g1; rfl
  rw [hu] at g3
  obtain ⟨g, q1, q2⟩ := C117_nees g3 g2 one_pos
  exact ⟨rs[0], g, List.getElem?_eq_getElem hl, q1, q2⟩

end Verif
