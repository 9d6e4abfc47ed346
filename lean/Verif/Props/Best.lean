import Verif.Props.Honest

/-!
C106: on a linear system with white noise, no affine function of the data fused so far estimates the state better than what
`run_filter` reports.
-/

set_option linter.unusedSectionVars false
set_option linter.unusedVariables false

namespace Verif

open Matrix MeasureTheory

variable {Ω : Type} {n : ℕ} {U : Type} [MeasurableSpace Ω]

/-! ### Specification: affine functions of the data -/

/-- The random numbers that are affine functions of the values of the measurements `ys`. -/
def dataSpan (ys : List (RMeas Ω n)) : Submodule ℝ (Ω → ℝ) :=
  Submodule.span ℝ ({fun _ => 1} ∪ {g | ∃ y ∈ ys, ∃ j, g = fun ω => y.value ω j})

/-- `Z` is an affine function of the values of the measurements `ys`. -/
def AffineIn (ys : List (RMeas Ω n)) {m : ℕ} (Z : Ω → Vec m) : Prop := ∀ i, (fun ω => Z ω i) ∈ dataSpan ys

/-! ### Orthogonality -/

/-- The square integrable numbers orthogonal to all components of `Z`. -/
def orthSub (μ : Measure Ω) {m : ℕ} (Z : Ω → Vec m) (hZ : SqInt μ Z) : Submodule ℝ (Ω → ℝ) where
  carrier := {d | MemLp d 2 μ ∧ ∀ i, ∫ ω, Z ω i * d ω ∂μ = 0}
  add_mem' := by
    rintro a c ⟨ha, ha'⟩ ⟨hc, hc'⟩
    refine ⟨ha.add hc, fun i => ?_⟩
    have e : (fun ω => Z ω i * (a + c) ω) = fun ω => Z ω i * a ω + Z ω i * c ω := by
      funext ω; exact mul_add _ _ _
    rw [e, integral_add (SqInt.int_mul (hZ i) ha) (SqInt.int_mul (hZ i) hc), ha' i, hc' i, add_zero]
  zero_mem' := ⟨MemLp.zero, fun i => by simp⟩
  smul_mem' := by
    rintro k a ⟨ha, ha'⟩
    refine ⟨ha.const_smul k, fun i => ?_⟩
    have e : (fun ω => Z ω i * (k • a) ω) = fun ω => k * (Z ω i * a ω) := by
      funext ω; simp only [Pi.smul_apply, smul_eq_mul]; ring
    rw [e, integral_const_mul, ha' i, mul_zero]

variable {μ : Measure Ω}

theorem orth_comb {m k d : ℕ} {Z : Ω → Vec m} {W : Ω → Vec k} (hZ : SqInt μ Z) (hW : SqInt μ W) {D : Submodule ℝ (Ω → ℝ)}
    (h1 : D ≤ orthSub μ Z hZ) (h2 : D ≤ orthSub μ W hW) (F : Mat d m) (G : Mat d k)
    {V : Ω → Vec d} (hV : SqInt μ V) (e : V = fun ω => F *ᵥ Z ω + G *ᵥ W ω) : D ≤ orthSub μ V hV := by
  subst e
  intro g hg
  have hm := (h1 hg).1
  refine ⟨hm, fun i => ?_⟩
  have hg' : SqInt μ (fun ω (_ : Fin 1) => g ω) := fun _ => hm
  have c1 : rvCross μ Z (fun ω (_ : Fin 1) => g ω) = 0 := by
    ext i j; exact (h1 hg).2 i
  have c2 : rvCross μ W (fun ω (_ : Fin 1) => g ω) = 0 := by
    ext i j; exact (h2 hg).2 i
  have c3 : rvCross μ (fun ω => F *ᵥ Z ω + G *ᵥ W ω) (fun ω (_ : Fin 1) => g ω) = 0 := by
    rw [rvCross_add_left (hZ.mulVec F) (hW.mulVec G) hg', rvCross_mulVec_left hZ hg', rvCross_mulVec_left hW hg', c1, c2]
    simp
  exact congrFun (congrFun c3 i) 0

theorem mem_mulVec {D : Submodule ℝ (Ω → ℝ)} {m k : ℕ} {Z : Ω → Vec m} (h : ∀ i, (fun ω => Z ω i) ∈ D) (C : Mat k m) (j : Fin k) :
    (fun ω => (C *ᵥ Z ω) j) ∈ D := by
  have e : (fun ω => (C *ᵥ Z ω) j) = ∑ i, C j i • fun ω => Z ω i := by
    funext ω
    rw [Finset.sum_apply]
    rfl
  rw [e]
  exact D.sum_mem fun i _ => D.smul_mem _ (h i)

/-- Adding the values of a measurement to the data. -/
def addData (D : Submodule ℝ (Ω → ℝ)) (y : RMeas Ω n) : Submodule ℝ (Ω → ℝ) :=
  D ⊔ Submodule.span ℝ (Set.range fun (j : Fin y.m) ω => y.value ω j)

/-- Adding the values of measurements to the data. -/
def allData : Submodule ℝ (Ω → ℝ) → List (RMeas Ω n) → Submodule ℝ (Ω → ℝ)
  | D, [] => D
  | D, y :: ys => allData (addData D y) ys

theorem addData_le {D S : Submodule ℝ (Ω → ℝ)} {y : RMeas Ω n} : addData D y ≤ S ↔ D ≤ S ∧ ∀ j, (fun ω => y.value ω j) ∈ S := by
  unfold addData
  rw [sup_le_iff, Submodule.span_le, Set.range_subset_iff]
  rfl

theorem allData_le : ∀ (ys : List (RMeas Ω n)) (D S : Submodule ℝ (Ω → ℝ)),
    allData D ys ≤ S ↔ D ≤ S ∧ ∀ y ∈ ys, ∀ j, (fun ω => y.value ω j) ∈ S
  | [], D, S => by simp [allData]
  | y :: ys, D, S => by
    unfold allData
    rw [allData_le ys, addData_le]
    simp only [List.forall_mem_cons]
    tauto

theorem allData_eq (ys : List (RMeas Ω n)) : allData (Submodule.span ℝ {fun _ => (1 : ℝ)}) ys = dataSpan ys := by
  apply le_antisymm
  · rw [allData_le]
    exact ⟨Submodule.span_mono (by simp), fun y hy j => Submodule.subset_span (.inr ⟨y, hy, j, rfl⟩)⟩
  · obtain ⟨h1, h2⟩ := (allData_le ys (Submodule.span ℝ {fun _ => (1 : ℝ)}) _).mp (le_refl _)
    unfold dataSpan
    rw [Submodule.span_le]
    rintro g (hg | ⟨y, hy, j, rfl⟩)
    · exact h1 (Submodule.subset_span hg)
    · exact h2 y hy j

/-- The estimate is a function of the data, and its error is orthogonal to the data. -/
structure Projected (μ : Measure Ω) (X : ℝ → Ω → Vec n) (D : Submodule ℝ (Ω → ℝ)) (r : Ω → SWC (Vec n) n) (t : ℝ) (P : Mat n n) : Prop where
  honest : Honest μ CovRel.exact X r t P
  mem : ∀ i, (fun ω => (r ω).state.value i) ∈ D
  orth : D ≤ orthSub μ (fun ω => X t ω - (r ω).state.value) honest.sq

/-! ### Single steps -/

/-- The noises ahead are orthogonal to the data. -/
def Ahead (μ : Measure Ω) (D : Submodule ℝ (Ω → ℝ)) (l : List (Noise Ω)) : Prop :=
  ∀ η ∈ l, ∃ h : SqInt μ η.val, D ≤ orthSub μ η.val h

section step
variable (A : Inp U → ℝ → Mat n n) (b : Inp U → ℝ → Vec n) (Q : Inp U → ℝ → Mat n n) (X : ℝ → Ω → Vec n)

theorem ahead_predict {x : Ω → SWC (Vec n) n} {P P' : Mat n n} {τ t : ℝ} {u : StInp U} {D : Submodule ℝ (Ω → ℝ)} {l : List (Noise Ω)}
    (h : Ahead μ D (⟨n, fun ω => X τ ω - (x ω).state.value, P⟩ :: procNoise A b Q X u τ t :: l)) :
    Ahead μ D (⟨n, fun ω => X t ω - (linPred A b Q ⟨u.value, some u.stamp⟩ τ t (x ω)).state.value, P'⟩ :: l) := by
  intro η hη
  rcases List.mem_cons.mp hη with rfl | hη
  · obtain ⟨s1, h1⟩ := h ⟨n, fun ω => X τ ω - (x ω).state.value, P⟩ (by simp)
    obtain ⟨s2, h2⟩ := h (procNoise A b Q X u τ t) (by simp)
    have e : (fun ω => X t ω - (linPred A b Q ⟨u.value, some u.stamp⟩ τ t (x ω)).state.value)
        = fun ω => A ⟨u.value, some u.stamp⟩ (t - τ) *ᵥ (X τ ω - (x ω).state.value)
          + (1 : Mat n n) *ᵥ (X t ω - (A ⟨u.value, some u.stamp⟩ (t - τ) *ᵥ X τ ω + b ⟨u.value, some u.stamp⟩ (t - τ))) := by
      funext ω
      show X t ω - (A ⟨u.value, some u.stamp⟩ (t - τ) *ᵥ (x ω).state.value + b ⟨u.value, some u.stamp⟩ (t - τ)) = _
      rw [one_mulVec, mulVec_sub]
      abel
    have s3 : SqInt μ (fun ω => X t ω - (linPred A b Q ⟨u.value, some u.stamp⟩ τ t (x ω)).state.value) := by
      rw [e]
      exact (SqInt.mulVec s1 _).add (SqInt.mulVec (m := n) s2 _)
    exact ⟨s3, orth_comb (m := n) (k := n) s1 s2 h1 h2 _ _ s3 e⟩
  · exact h η (by simp [hη])

theorem ahead_correct {x : Ω → SWC (Vec n) n} {P : Mat n n} (hP : P.PosSemidef) (hc : ∀ ω, (x ω).cov = P) {τ : ℝ} {y : RMeas Ω n}
    (hR : y.R.PosDef) {D : Submodule ℝ (Ω → ℝ)} {l : List (Noise Ω)} (hx : ∀ i, (fun ω => (x ω).state.value i) ∈ D)
    (hw : White μ CovRel.exact (⟨n, fun ω => X τ ω - (x ω).state.value, P⟩ :: measNoise X τ y :: l))
    (h : Ahead μ D (⟨n, fun ω => X τ ω - (x ω).state.value, P⟩ :: measNoise X τ y :: l)) :
    Ahead μ (addData D y)
      (⟨n, fun ω => X τ ω - (linPost y.C y.R (y.value ω) τ (x ω)).state.value, kCov P y.C y.R⟩ :: l) ∧
    ∀ i, (fun ω => (linPost y.C y.R (y.value ω) τ (x ω)).state.value i) ∈ addData D y := by
  have hS := pd_det (innov_pd hP y.C hR)
  obtain ⟨s1, h1⟩ := h ⟨n, fun ω => X τ ω - (x ω).state.value, P⟩ (by simp)
  obtain ⟨s2, h2⟩ := h (measNoise X τ y) (by simp)
  have s1 : SqInt μ (fun ω => X τ ω - (x ω).state.value) := s1
  have s2 : SqInt μ (fun ω => y.value ω - y.C *ᵥ X τ ω) := s2
  have u1 := List.pairwise_cons.mp hw.uncorr
  have u2 := List.pairwise_cons.mp u1.2
  have c0 : rvCross μ (fun ω => X τ ω - (x ω).state.value) (fun ω => y.value ω - y.C *ᵥ X τ ω) = 0 :=
    u1.1 (measNoise X τ y) (by simp)
  have c1 : rvCross μ (fun ω => X τ ω - (x ω).state.value) (fun ω => X τ ω - (x ω).state.value) = P :=
    hw.cov ⟨n, fun ω => X τ ω - (x ω).state.value, P⟩ (by simp)
  have c2 : rvCross μ (fun ω => y.value ω - y.C *ᵥ X τ ω) (fun ω => y.value ω - y.C *ᵥ X τ ω) = y.R :=
    hw.cov (measNoise X τ y) (by simp)
  have hDy := (addData_le (D := D) (S := addData D y) (y := y)).mp (le_refl _)
  -- the innovation
  have ez : (fun ω => y.value ω - y.C *ᵥ (x ω).state.value)
      = fun ω => y.C *ᵥ (X τ ω - (x ω).state.value) + (1 : Mat y.m y.m) *ᵥ (y.value ω - y.C *ᵥ X τ ω) := by
    funext ω
    rw [one_mulVec, mulVec_sub]
    abel
  have sz : SqInt μ (fun ω => y.value ω - y.C *ᵥ (x ω).state.value) := by
    rw [ez]; exact (s1.mulVec _).add (s2.mulVec _)
  have sCx : ∀ j, MemLp (fun ω => (y.C *ᵥ (x ω).state.value) j) 2 μ := fun j => (h1 (mem_mulVec hx y.C j)).1
  have sy : ∀ j, MemLp (fun ω => y.value ω j) 2 μ := by
    intro j
    have e : (fun ω => y.value ω j) = fun ω => (y.value ω - y.C *ᵥ (x ω).state.value) j + (y.C *ᵥ (x ω).state.value) j := by
      funext ω; simp
    rw [e]
    exact (sz j).add (sCx j)
  -- a vector orthogonal to the data and to the innovation is orthogonal to the measurement
  have key : ∀ {m : ℕ} {V : Ω → Vec m} (hV : SqInt μ V), D ≤ orthSub μ V hV →
      rvCross μ V (fun ω => y.value ω - y.C *ᵥ (x ω).state.value) = 0 → addData D y ≤ orthSub μ V hV := by
    intro m V hV hD hc
    rw [addData_le]
    refine ⟨hD, fun j => ⟨sy j, fun i => ?_⟩⟩
    have e : (fun ω => V ω i * y.value ω j) = fun ω => V ω i * (y.value ω - y.C *ᵥ (x ω).state.value) j
        + V ω i * (y.C *ᵥ (x ω).state.value) j := by
      funext ω
      rw [← mul_add]
      simp
    rw [e, integral_add (SqInt.int_mul (hV i) (sz j)) (SqInt.int_mul (hV i) (sCx j)), (hD (mem_mulVec hx y.C j)).2 i, add_zero]
    exact congrFun (congrFun hc i) j
  constructor
  · intro η hη
    rcases List.mem_cons.mp hη with rfl | hη
    · have e : (fun ω => X τ ω - (linPost y.C y.R (y.value ω) τ (x ω)).state.value)
          = fun ω => (X τ ω - (x ω).state.value) - kGain P y.C y.R *ᵥ (y.value ω - y.C *ᵥ (x ω).state.value) := by
        funext ω
        show X τ ω - ((x ω).state.value + kGain (x ω).cov y.C y.R *ᵥ (y.value ω - y.C *ᵥ (x ω).state.value)) = _
        rw [hc]
        abel
      have s3 : SqInt μ (fun ω => X τ ω - (linPost y.C y.R (y.value ω) τ (x ω)).state.value) := by
        rw [e]; exact s1.sub (sz.mulVec _)
      refine ⟨s3, key s3 ?_ ?_⟩
      · refine orth_comb s1 s2 h1 h2 (1 - kGain P y.C y.R * y.C) (-kGain P y.C y.R) s3 ?_
        rw [e]
        funext ω
        show (X τ ω - (x ω).state.value) - kGain P y.C y.R *ᵥ (y.value ω - y.C *ᵥ (x ω).state.value)
          = (1 - kGain P y.C y.R * y.C) *ᵥ (X τ ω - (x ω).state.value) + (-kGain P y.C y.R) *ᵥ (y.value ω - y.C *ᵥ X τ ω)
        simp only [sub_mulVec, one_mulVec, neg_mulVec, mulVec_sub, ← mulVec_mulVec]
        abel
      · rw [e, rvCross_sub_left s1 (sz.mulVec _) sz, rvCross_mulVec_left sz sz]
        have cz : rvCross μ (fun ω => y.value ω - y.C *ᵥ (x ω).state.value) (fun ω => y.value ω - y.C *ᵥ (x ω).state.value)
            = y.C * P * y.Cᵀ + y.R := by
          rw [ez, rvCross_comb s1 s2 c0, c1, c2]
          simp
        have ce : rvCross μ (fun ω => X τ ω - (x ω).state.value) (fun ω => y.value ω - y.C *ᵥ (x ω).state.value) = P * y.Cᵀ := by
          rw [ez, rvCross_add_right (s1.mulVec _) (s2.mulVec _) s1, rvCross_mulVec_right s1 s1, rvCross_mulVec_right s2 s1, c1, c0]
          simp
        rw [cz, ce, kGain_mul P y.C y.R hS, sub_self]
    · obtain ⟨s4, h4⟩ := h η (by simp [hη])
      refine ⟨s4, key s4 h4 ?_⟩
      have d1 : rvCross μ η.val (fun ω => X τ ω - (x ω).state.value) = 0 := by
        rw [rvCross_symm (fun ω => X τ ω - (x ω).state.value) η.val, u1.1 η (by simp [hη]), transpose_zero]
      have d2 : rvCross μ η.val (fun ω => y.value ω - y.C *ᵥ X τ ω) = 0 := by
        have := u2.1 η hη
        rw [rvCross_symm (fun ω => y.value ω - y.C *ᵥ X τ ω) η.val]
        rw [show rvCross μ (fun ω => y.value ω - y.C *ᵥ X τ ω) η.val = 0 from this, transpose_zero]
      rw [ez, rvCross_add_right (s1.mulVec _) (s2.mulVec _) s4, rvCross_mulVec_right s1 s4, rvCross_mulVec_right s2 s4, d1, d2]
      simp
  · intro i
    have e : (fun ω => (linPost y.C y.R (y.value ω) τ (x ω)).state.value i)
        = (fun ω => (x ω).state.value i) + ((fun ω => (kGain P y.C y.R *ᵥ y.value ω) i)
          - fun ω => (kGain P y.C y.R *ᵥ (y.C *ᵥ (x ω).state.value)) i) := by
      funext ω
      show (x ω).state.value i + (kGain (x ω).cov y.C y.R *ᵥ (y.value ω - y.C *ᵥ (x ω).state.value)) i = _
      rw [hc, mulVec_sub]
      rfl
    rw [e]
    exact (addData D y).add_mem (hDy.1 (hx i)) ((addData D y).sub_mem (mem_mulVec hDy.2 _ i)
      (hDy.1 (mem_mulVec (fun j => mem_mulVec hx y.C j) _ i)))

end step

/-! ### Whole runs -/

section run
variable [IsProbabilityMeasure μ]
variable (A : Inp U → ℝ → Mat n n) (b : Inp U → ℝ → Vec n) (Q : Inp U → ℝ → Mat n n) (chi : ℕ → ℝ) (X : ℝ → Ω → Vec n)

theorem mem_proc {G : Submodule ℝ (Ω → ℝ)} (h1 : (fun _ => (1 : ℝ)) ∈ G) {u : StInp U} {τ t : ℝ} (hX : ∀ i, (fun ω => X τ ω i) ∈ G)
    (hn : ∀ j, (fun ω => (procNoise A b Q X u τ t).val ω j) ∈ G) (i : Fin n) : (fun ω => X t ω i) ∈ G := by
  have e : (fun ω => X t ω i) = (fun ω => (A ⟨u.value, some u.stamp⟩ (t - τ) *ᵥ X τ ω) i)
      + (b ⟨u.value, some u.stamp⟩ (t - τ) i) • (fun _ => (1 : ℝ)) + fun ω => (procNoise A b Q X u τ t).val ω i := by
    funext ω
    show X t ω i = (A ⟨u.value, some u.stamp⟩ (t - τ) *ᵥ X τ ω) i + b ⟨u.value, some u.stamp⟩ (t - τ) i * 1
      + (X t ω i - ((A ⟨u.value, some u.stamp⟩ (t - τ) *ᵥ X τ ω) i + b ⟨u.value, some u.stamp⟩ (t - τ) i))
    ring
  rw [e]
  exact G.add_mem (G.add_mem (mem_mulVec hX _ i) (G.smul_mem _ h1)) (hn i)

theorem mem_meas {G : Submodule ℝ (Ω → ℝ)} {τ : ℝ} (hX : ∀ i, (fun ω => X τ ω i) ∈ G) {y : RMeas Ω n}
    (hn : ∀ j, (fun ω => (measNoise X τ y).val ω j) ∈ G) (j : Fin y.m) : (fun ω => y.value ω j) ∈ G := by
  have e : (fun ω => y.value ω j) = (fun ω => (y.C *ᵥ X τ ω) j) + fun ω => (measNoise X τ y).val ω j := by
    funext ω
    show y.value ω j = (y.C *ᵥ X τ ω) j + (y.value ω j - (y.C *ᵥ X τ ω) j)
    ring
  rw [e]
  exact G.add_mem (mem_mulVec hX _ j) (hn j)

/-- `G` is any space of random numbers that contains the constants, the initial truth and the noises: it then contains the truth
and the data all along the run. -/
theorem best_events (G : Submodule ℝ (Ω → ℝ)) (hG : (fun _ => (1 : ℝ)) ∈ G) (hQ : ∀ u dt, 0 ≤ dt → (Q u dt).PosSemidef) :
    ∀ (es : List (Ev (StInp U) (RMeas Ω n))) (x : Ω → SWC (Vec n) n) (P : Mat n n) (τ : ℝ) (D : Submodule ℝ (Ω → ℝ)), P.PosSemidef →
      (∀ ω, (x ω).cov = P) → (∀ ω, (x ω).state.stamp = some τ) → ForwardR τ es →
      White μ CovRel.exact (⟨n, fun ω => X τ ω - (x ω).state.value, P⟩ :: noises A b Q X τ es) →
      (fun _ => (1 : ℝ)) ∈ D → (∀ i, (fun ω => (x ω).state.value i) ∈ D) →
      Ahead μ D (⟨n, fun ω => X τ ω - (x ω).state.value, P⟩ :: noises A b Q X τ es) →
      (∀ i, (fun ω => X τ ω i) ∈ G) → (∀ η ∈ noises A b Q X τ es, ∀ j, (fun ω => η.val ω j) ∈ G) → D ≤ G →
      ∃ rs : List (Ω → SWC (Vec n) n), (∀ ω, exec (randApi (linFilter A b Q chi) ω) es (x ω) = .ok (rs.map (· ω))) ∧
        rs.length = recorded es ∧ ∀ (j : ℕ) (r : Ω → SWC (Vec n) n), rs[j]? = some r → ∃ pre post,
          es = pre ++ Ev.record :: post ∧ recorded pre = j ∧ ∃ t P, Projected μ X (allData D (fused pre)) r t P ∧
            (∀ i, (fun ω => X t ω i) ∈ G) ∧ allData D (fused pre) ≤ G
  | [], x, P, τ, D, hP, hc, hs, hf, hw, h1, hx, ha, hXG, hnG, hDG => ⟨[], fun ω => rfl, rfl, by simp⟩
  | .record :: es, x, P, τ, D, hP, hc, hs, hf, hw, h1, hx, ha, hXG, hnG, hDG => by
    obtain ⟨rs, e1, e2, e3⟩ := best_events G hG hQ es x P τ D hP hc hs hf hw h1 hx ha hXG hnG hDG
    refine ⟨x :: rs, fun ω => ?_, by simp [recorded, e2], ?_⟩
    · unfold exec; rw [e1 ω]; rfl
    · intro j r hr
      cases j with
      | zero =>
        cases hr
        obtain ⟨s1, o1⟩ := ha ⟨n, fun ω => X τ ω - (x ω).state.value, P⟩ (by simp)
        exact ⟨[], es, rfl, rfl, τ, P, ⟨⟨hs, hc, hP, s1, hw.mean ⟨n, fun ω => X τ ω - (x ω).state.value, P⟩ (by simp),
          hw.cov ⟨n, fun ω => X τ ω - (x ω).state.value, P⟩ (by simp)⟩, hx, o1⟩,
          hXG, hDG⟩
      | succ j =>
        obtain ⟨pre, post, g1, g2, g3⟩ := e3 j r hr
        exact ⟨.record :: pre, post, by rw [g1]; rfl, by simp [recorded, g2], g3⟩
  | .predict u t :: es, x, P, τ, D, hP, hc, hs, hf, hw, h1, hx, ha, hXG, hnG, hDG => by
    have hq := hQ ⟨u.value, some u.stamp⟩ (t - τ) (by linarith [hf.1])
    have hx' : ∀ i, (fun ω => (linPred A b Q ⟨u.value, some u.stamp⟩ τ t (x ω)).state.value i) ∈ D := by
      intro i
      have e : (fun ω => (linPred A b Q ⟨u.value, some u.stamp⟩ τ t (x ω)).state.value i)
          = (fun ω => (A ⟨u.value, some u.stamp⟩ (t - τ) *ᵥ (x ω).state.value) i)
            + (b ⟨u.value, some u.stamp⟩ (t - τ) i) • (fun _ => (1 : ℝ)) := by
        funext ω
        simp [linPred]
      rw [e]
      exact D.add_mem (mem_mulVec hx _ i) (D.smul_mem _ h1)
    obtain ⟨rs, e1, e2, e3⟩ := best_events G hG hQ es (fun ω => linPred A b Q ⟨u.value, some u.stamp⟩ τ t (x ω)) _ t D
      (psd_add (psd_conj hP _) hq) (fun ω => by simp only [linPred, hc]) (fun ω => rfl) hf.2
      (white_predict A b Q X hc hw) h1 hx' (ahead_predict A b Q X ha)
      (mem_proc A b Q X hG hXG (hnG (procNoise A b Q X u τ t) (by simp [noises]))) (fun η hη => hnG η (by simp [noises, hη])) hDG
    refine ⟨rs, fun ω => ?_, e2, ?_⟩
    · unfold exec
      have := psd_step_predict A b Q chi u (hs ω) hf.1 (by rw [hc]; exact hP) hq
      rw [show predictTo (randApi (linFilter A b Q chi) ω) (x ω) u t = _ from this]
      exact e1 ω
    · intro j r hr
      obtain ⟨pre, post, g1, g2, g3⟩ := e3 j r hr
      exact ⟨.predict u t :: pre, post, by rw [g1]; rfl, g2, g3⟩
  | .correct y u :: es, x, P, τ, D, hP, hc, hs, hf, hw, h1, hx, ha, hXG, hnG, hDG => by
    obtain ⟨ht, hR, hf⟩ := hf
    unfold noises at hw ha hnG
    have hD1 : (fun _ => (1 : ℝ)) ∈ addData D y := ((addData_le (D := D) (S := addData D y) (y := y)).mp (le_refl _)).1 h1
    by_cases hlt : y.stamp - τ > 1 / 10 ^ 11
    · rw [if_pos hlt] at hf hw ha hnG
      have hXG' := mem_proc A b Q X hG hXG (hnG (procNoise A b Q X u τ y.stamp) (by simp))
      have hyG := mem_meas X hXG' (hnG (measNoise X y.stamp y) (by simp))
      have h0 : (0 : ℝ) < 1 / 10 ^ 11 := by positivity
      have hq := hQ ⟨u.value, some u.stamp⟩ (y.stamp - τ) (by linarith)
      have hP1 := psd_add (psd_conj hP (A ⟨u.value, some u.stamp⟩ (y.stamp - τ))) hq
      have hx' : ∀ i, (fun ω => (linPred A b Q ⟨u.value, some u.stamp⟩ τ y.stamp (x ω)).state.value i) ∈ D := by
        intro i
        have e : (fun ω => (linPred A b Q ⟨u.value, some u.stamp⟩ τ y.stamp (x ω)).state.value i)
            = (fun ω => (A ⟨u.value, some u.stamp⟩ (y.stamp - τ) *ᵥ (x ω).state.value) i)
              + (b ⟨u.value, some u.stamp⟩ (y.stamp - τ) i) • (fun _ => (1 : ℝ)) := by
          funext ω
          simp [linPred]
        rw [e]
        exact D.add_mem (mem_mulVec hx _ i) (D.smul_mem _ h1)
      have hw1 := white_predict A b Q X hc hw
      have hc1 : ∀ ω, (linPred A b Q ⟨u.value, some u.stamp⟩ τ y.stamp (x ω)).cov
          = A ⟨u.value, some u.stamp⟩ (y.stamp - τ) * P * (A ⟨u.value, some u.stamp⟩ (y.stamp - τ))ᵀ
            + Q ⟨u.value, some u.stamp⟩ (y.stamp - τ) := fun ω => by simp only [linPred, hc]
      obtain ⟨k1, k2⟩ := ahead_correct X hP1 hc1 hR hx' hw1 (ahead_predict A b Q X ha)
      obtain ⟨rs, e1, e2, e3⟩ := best_events G hG hQ es
        (fun ω => linPost y.C y.R (y.value ω) y.stamp (linPred A b Q ⟨u.value, some u.stamp⟩ τ y.stamp (x ω))) _ y.stamp (addData D y)
        (kCov_psd hP1 y.C hR) (fun ω => by simp only [linPost, linPred, hc]) (fun ω => rfl) hf
        (white_correct X hP1 hc1 hR hw1) hD1 k2 k1 hXG' (fun η hη => hnG η (by simp [hη])) (addData_le.mpr ⟨hDG, hyG⟩)
      refine ⟨rs, fun ω => ?_, e2, ?_⟩
      · unfold exec
        have := psd_step_later A b Q chi u y ω hR (hs ω) (by rw [hc]; exact hP) hq hlt
        rw [show (randApi (linFilter A b Q chi) ω).correct (x ω) y u = _ from this]
        exact e1 ω
      · intro j r hr
        obtain ⟨pre, post, g1, g2, g3⟩ := e3 j r hr
        exact ⟨.correct y u :: pre, post, by rw [g1]; rfl, g2, g3⟩
    · rw [if_neg hlt] at hf hw ha hnG
      have hyG := mem_meas X hXG (hnG (measNoise X τ y) (by simp))
      obtain ⟨k1, k2⟩ := ahead_correct X hP hc hR hx hw ha
      obtain ⟨rs, e1, e2, e3⟩ := best_events G hG hQ es (fun ω => linPost y.C y.R (y.value ω) τ (x ω)) _ τ (addData D y)
        (kCov_psd hP y.C hR) (fun ω => by simp only [linPost, hc]) (fun ω => rfl) hf (white_correct X hP hc hR hw) hD1 k2 k1
        hXG (fun η hη => hnG η (by simp [hη])) (addData_le.mpr ⟨hDG, hyG⟩)
      refine ⟨rs, fun ω => ?_, e2, ?_⟩
      · unfold exec
        have := psd_step_here A b Q chi (some ⟨u.value, some u.stamp⟩) y ω hR (hs ω) (by rw [hc]; exact hP) ht hlt
        rw [show (randApi (linFilter A b Q chi) ω).correct (x ω) y u = _ from this]
        exact e1 ω
      · intro j r hr
        obtain ⟨pre, post, g1, g2, g3⟩ := e3 j r hr
        exact ⟨.correct y u :: pre, post, by rw [g1]; rfl, g2, g3⟩

/-- What orthogonality gives: any other vector made of the data has an error covariance at least as large. -/
theorem projected_best {D : Submodule ℝ (Ω → ℝ)} {r : Ω → SWC (Vec n) n} {t : ℝ} {P : Mat n n} (h : Projected μ X D r t P)
    {Z : Ω → Vec n} (hZ : ∀ i, (fun ω => Z ω i) ∈ D) :
    (rvCross μ (fun ω => X t ω - Z ω) (fun ω => X t ω - Z ω) - P).PosSemidef := by
  have hsub : ∀ i, (fun ω => (r ω).state.value i - Z ω i) ∈ D := fun i => D.sub_mem (h.mem i) (hZ i)
  have s2 : SqInt μ (fun ω => (r ω).state.value - Z ω) := fun i => (h.orth (hsub i)).1
  have s1 := h.honest.sq
  have c0 : rvCross μ (fun ω => X t ω - (r ω).state.value) (fun ω => (r ω).state.value - Z ω) = 0 := by
    ext i j
    exact (h.orth (hsub j)).2 i
  have e : (fun ω => X t ω - Z ω) = fun ω => (1 : Mat n n) *ᵥ (X t ω - (r ω).state.value) + (1 : Mat n n) *ᵥ ((r ω).state.value - Z ω) := by
    funext ω
    rw [one_mulVec, one_mulVec]
    abel
  rw [e, rvCross_comb s1 s2 c0, show rvCross μ (fun ω => X t ω - (r ω).state.value) (fun ω => X t ω - (r ω).state.value) = P from
    h.honest.error]
  simp only [transpose_one, Matrix.one_mul, Matrix.mul_one, add_sub_cancel_left]
  exact rvCross_psd s2

/-- C106: the estimates that `run_filter` reports are affine functions of the measurements fused before, and no affine function of
these has a smaller error covariance. -/
theorem C106_best (hQ : ∀ u dt, 0 ≤ dt → (Q u dt).PosSemidef) (x0 : Vec n) (t0 : ℝ) (P0 : Mat n n)
    (hP : P0.PosSemidef) (ins : List (StInp U)) (meas : List (RMeas Ω n))
    (hi : ins = [] ∨ ∃ u ∈ ins, t0 ≤ u.stamp) (hm : meas = [] ∨ ∃ y ∈ meas, t0 ≤ y.stamp) (hR : ∀ y ∈ meas, y.R.PosDef)
    (hw : White μ CovRel.exact (⟨n, fun ω => X t0 ω - x0, P0⟩ :: noises A b Q X t0 (runEvents t0 ins meas))) :
    ∃ rs : List (Ω → SWC (Vec n) n),
      (∀ ω, runFilter (ekfApi (linFilter A b Q chi)) ⟨⟨x0, some t0⟩, P0⟩ ins (meas.map (·.at ω)) = .ok (rs.map (· ω))) ∧
      rs.length = recorded (runEvents t0 ins meas) ∧
      ∀ (j : ℕ) (r : Ω → SWC (Vec n) n), rs[j]? = some r → ∃ pre post,
        runEvents t0 ins meas = pre ++ Ev.record :: post ∧ recorded pre = j ∧
        ∃ t P, Honest μ CovRel.exact X r t P ∧ AffineIn (fused pre) (fun ω => (r ω).state.value) ∧
          ∀ Z : Ω → Vec n, AffineIn (fused pre) Z →
            (rvCross μ (fun ω => X t ω - Z ω) (fun ω => X t ω - Z ω) - P).PosSemidef := by
  have hone : ∀ {m : ℕ} {V : Ω → Vec m} (hV : SqInt μ V), rvMean μ V = 0 →
      Submodule.span ℝ {fun _ => (1 : ℝ)} ≤ orthSub μ V hV := by
    intro m V hV h0
    rw [Submodule.span_le]
    rintro g rfl
    refine ⟨memLp_const _, fun i => ?_⟩
    simp only [mul_one]
    exact congrFun h0 i
  obtain ⟨rs, h1, h2, h3⟩ := best_events A b Q chi X ⊤ trivial hQ (runEvents t0 ins meas) (fun ω => ⟨⟨x0, some t0⟩, P0⟩) P0 t0
    (Submodule.span ℝ {fun _ => (1 : ℝ)}) hP (fun _ => rfl) (fun _ => rfl) (runEvents_forward hR) hw
    (Submodule.subset_span rfl)
    (fun i => by
      have e : (fun _ : Ω => x0 i) = x0 i • fun _ : Ω => (1 : ℝ) := by funext ω; simp
      show (fun _ : Ω => x0 i) ∈ _
      rw [e]
      exact Submodule.smul_mem _ _ (Submodule.subset_span rfl))
    (fun η hη => ⟨hw.sq η hη, hone _ (hw.mean η hη)⟩) (fun _ => trivial) (fun _ _ _ => trivial) le_top
  refine ⟨rs, fun ω => ?_, h2, fun j r hr => ?_⟩
  · rw [run_rand, C21_run_filter_schedule (randApi (linFilter A b Q chi) ω) _ t0 rfl ins meas hi hm]
    exact h1 ω
  · obtain ⟨pre, post, g1, g2, t, P, hp, -⟩ := h3 j r hr
    rw [allData_eq] at hp
    exact ⟨pre, post, g1, g2, t, P, hp.honest, hp.mem, fun Z hZ => projected_best X hp hZ⟩

/-- C106: the same for the mean square error. -/
theorem C106_mse {r : Ω → SWC (Vec n) n} {t : ℝ} {P : Mat n n} (h : Honest μ CovRel.exact X r t P) {Z : Ω → Vec n}
    (hs : SqInt μ (fun ω => X t ω - Z ω))
    (hZ : (rvCross μ (fun ω => X t ω - Z ω) (fun ω => X t ω - Z ω) - P).PosSemidef) :
    ∫ ω, (X t ω - (r ω).state.value) ⬝ᵥ (X t ω - (r ω).state.value) ∂μ ≤ ∫ ω, (X t ω - Z ω) ⬝ᵥ (X t ω - Z ω) ∂μ := by
  have h1 := quad_mean h.sq (1 : Mat n n)
  have h2 := quad_mean hs (1 : Mat n n)
  simp only [one_mulVec, Matrix.one_mul] at h1 h2
  rw [h1, h2, show rvCross μ (fun ω => X t ω - (r ω).state.value) (fun ω => X t ω - (r ω).state.value) = P from h.error]
  have := hZ.trace_nonneg
  rw [trace_sub] at this
  linarith

/-- C106: the innovation that `correct` returns in its details is uncorrelated with every data fused before (and so with every earlier
innovation). -/
theorem C106_innovation {D : Submodule ℝ (Ω → ℝ)} {r : Ω → SWC (Vec n) n} {t : ℝ} {P : Mat n n} (h : Projected μ X D r t P)
    (y : RMeas Ω n) (hy : y.stamp = t) (hR : y.R.PosDef)
    (hv : SqInt μ (measNoise X t y).val) (ho : D ≤ orthSub μ (measNoise X t y).val hv) (u : Option (Inp U)) :
    ∃ (z : Ω → Vec y.m) (S : Mat y.m y.m) (x' : Ω → SWC (Vec n) n),
      (∀ ω, (linFilter A b Q chi).correctD (r ω) (y.at ω).meas u none none = .ok (x' ω, some ⟨y.m, z ω, S, false⟩)) ∧
      ∀ d ∈ D, ∀ i, ∫ ω, z ω i * d ω ∂μ = 0 := by
  have s1 := h.honest.sq
  have s2 : SqInt μ (fun ω => y.value ω - y.C *ᵥ X t ω) := hv
  have ez : (fun ω => y.value ω - y.C *ᵥ (r ω).state.value)
      = fun ω => y.C *ᵥ (X t ω - (r ω).state.value) + (1 : Mat y.m y.m) *ᵥ (y.value ω - y.C *ᵥ X t ω) := by
    funext ω
    rw [one_mulVec, mulVec_sub]
    abel
  have sz : SqInt μ (fun ω => y.value ω - y.C *ᵥ (r ω).state.value) := by
    rw [ez]; exact (s1.mulVec _).add (s2.mulVec _)
  have hz := orth_comb s1 s2 h.orth ho y.C (1 : Mat y.m y.m) sz ez
  refine ⟨fun ω => y.value ω - y.C *ᵥ (r ω).state.value, y.C * P * y.Cᵀ + y.R, fun ω => linPost y.C y.R (y.value ω) t (r ω),
    fun ω => ?_, fun d hd i => (hz hd).2 i⟩
  have := psd_step_hereD A b Q chi u y.C (y.value ω) y.stamp hR (h.honest.stamp ω) (by rw [h.honest.cov]; exact h.honest.psd) (by rw [hy])
    (by rw [hy, sub_self]; exact not_lt.mpr (by positivity))
  rw [h.honest.cov] at this
  exact this

end run

/-- The value of that measurement. -/
noncomputable def coinValue : Bool × Bool × Bool × Bool → Vec 1 := coinMeas.value

/-- The hypotheses of C106 hold for the random log of C105: the estimate beats the plain measurement. -/
example : ∃ rs : List (Bool × Bool × Bool × Bool → SWC (Vec 1) 1),
    (∀ ω, runFilter (ekfApi (linFilter (U := Unit) (fun _ _ => 1) (fun _ _ => 0) (fun _ _ => 1) (fun _ => 0))) ⟨⟨0, some 0⟩, 1⟩
      [⟨(), 0⟩, ⟨(), 1⟩] ([coinMeas].map (·.at ω)) = .ok (rs.map (· ω))) ∧
    ∃ r ∈ rs, ∃ t P, Honest coins CovRel.exact coinTruth r t P ∧
      (rvCross coins (fun ω => coinTruth t ω - coinValue ω) (fun ω => coinTruth t ω - coinValue ω) - P).PosSemidef := by
  obtain ⟨rs, h1, h2, h3⟩ := C106_best (U := Unit) (μ := coins) (fun _ _ => 1) (fun _ _ => 0) (fun _ _ => 1) (fun _ => 0)
    coinTruth (fun _ _ _ => PosSemidef.one) 0 0 1 PosSemidef.one [⟨(), 0⟩, ⟨(), 1⟩] [coinMeas]
    (.inr ⟨⟨(), 0⟩, by simp, le_refl _⟩) (.inr ⟨coinMeas, by simp, by norm_num [coinMeas]⟩)
    (fun y hy => by rw [List.mem_singleton.mp hy]; exact PosDef.one) coin_white
  refine ⟨rs, h1, ?_⟩
  have hl : rs.length = 1 := by rw [h2, coin_events]; rfl
  obtain ⟨r, hr⟩ : ∃ r, rs[0]? = some r := ⟨rs[0], by simp [hl]⟩
  obtain ⟨pre, post, g1, g2, t, P, g3, -, g4⟩ := h3 0 r hr
  refine ⟨r, List.mem_of_getElem? hr, t, P, g3, g4 coinValue (fun i => Submodule.subset_span (.inr ⟨coinMeas, ?_, i, rfl⟩))⟩
  rw [coin_events] at g1
  cases pre with
  | nil => cases g1
  | cons e es =>
    simp only [List.cons_append, List.cons.injEq] at g1
    rw [← g1.1]
    simp [fused]

end Verif
