import Verif.Model.Slam
import Verif.Lemmas.Grad
import Verif.Props.Composite
import Verif.Props.MeasurementsPair

/-! C65 (placement of the blocks), and C64 for whole composite states. -/

namespace Verif

open CState Matrix

set_option linter.unusedVariables false
set_option linter.unusedSectionVars false

variable {K L : Type} [DecidableEq K]

theorem blockDictSet_two {i j : K} (h : i ≠ j) (A B : DMat) : blockDictSet (blockDictSet [] i A) j B = [(i, A), (j, B)] := by
  simp [blockDictSet, h]

theorem blockDictSet_same (i : K) (A B : DMat) : blockDictSet (blockDictSet [] i A) i B = [(i, B)] := by
  simp [blockDictSet]

/-- Specification: `J` holds `B1` in the columns of the `p`-th sub-state, `B2` in those of the `q`-th, zeros elsewhere. -/
def BlocksAt (o : LeafOps L) (l : List (CState K L)) (p q : ℕ) (B1 B2 J : DMat) : Prop :=
  J.rows = B1.rows ∧ J.cols = dofList o l ∧
  (∀ a b, a < B1.rows → b < B1.cols → J.get a (off o l p + b) = B1.get a b) ∧
  (∀ a b, a < B1.rows → b < B2.cols → J.get a (off o l q + b) = B2.get a b) ∧
  ∀ a c, a < B1.rows → ¬ (off o l p ≤ c ∧ c < off o l p + B1.cols) → ¬ (off o l q ≤ c ∧ c < off o l q + B2.cols) → J.get a c = 0

theorem two_blocks (o : LeafOps L) (l : List (CState K L)) {i j : K} {p q : ℕ} (hp : FirstWithId l i p) (hq : FirstWithId l j q)
    (hij : i ≠ j) (B1 B2 : DMat) (hr : B2.rows = B1.rows) (h1 : B1.cols = (l[p]'hp.1).dof o) (h2 : B2.cols = (l[q]'hq.1).dof o) :
    ∃ J, jacobianFromBlocks o l (blockDictSet (blockDictSet [] i B1) j B2) = .ok J ∧ BlocksAt o l p q B1 B2 J := by
  rw [blockDictSet_two hij]
  obtain ⟨J, hJ, hrow, hcol, hin, hout⟩ := C29_from_blocks o l (fun k => if k = i then p else q) B1.rows [(i, B1), (j, B2)] (by simp)
    (by simp [hij]) (by
      intro ib hib
      rcases List.mem_cons.1 hib with rfl | hib
      · have e : (if i = i then p else q) = p := if_pos rfl
        show ∃ h : FirstWithId l i (if i = i then p else q), _ ∧ B1.cols = (l[if i = i then p else q]'h.1).dof o
        simp only [e]
        exact ⟨hp, trivial, h1⟩
      · rcases List.mem_singleton.1 hib with rfl
        have e : (if j = i then p else q) = q := if_neg (Ne.symm hij)
        show ∃ h : FirstWithId l j (if j = i then p else q), B2.rows = B1.rows ∧ B2.cols = (l[if j = i then p else q]'h.1).dof o
        simp only [e]
        exact ⟨hq, hr, h2⟩)
  refine ⟨J, hJ, hrow, hcol, fun a b ha hb => ?_, fun a b ha hb => ?_, fun a c ha hc hc' => hout a c ha fun ib hib => ?_⟩
  · have := hin (i, B1) (by simp) a b ha hb
    simpa using this
  · have := hin (j, B2) (by simp) a b ha hb
    simpa [Ne.symm hij] using this
  · rcases List.mem_cons.1 hib with rfl | hib
    · simpa using hc
    · rcases List.mem_singleton.1 hib with rfl
      simpa [Ne.symm hij] using hc'

/-- C65: `CameraProjection` and `RangePoseToPose` put the two blocks at the sub-states they name, in whatever order these stand
in the composite state and whatever else it contains. -/
theorem C65_by_id (o : LeafOps L) (blocks : CState K L → CState K L → Except Err (DMat × DMat)) (l : List (CState K L)) {i j : K}
    {p q : ℕ} (hp : FirstWithId l i p) (hq : FirstWithId l j q) (hij : i ≠ j) (B1 B2 : DMat)
    (hB : blocks (l[p]'hp.1) (l[q]'hq.1) = .ok (B1, B2)) (hr : B2.rows = B1.rows) (h1 : B1.cols = (l[p]'hp.1).dof o)
    (h2 : B2.cols = (l[q]'hq.1).dof o) : ∃ J, twoJacobian o blocks i j l = .ok J ∧ BlocksAt o l p q B1 B2 J := by
  obtain ⟨J, hJ, h⟩ := two_blocks o l hp hq hij B1 B2 hr h1 h2
  refine ⟨J, ?_, h⟩
  unfold twoJacobian
  rw [getState_ok l i p hp, getState_ok l j q hq]
  show (blocks (l[p]'hp.1) (l[q]'hq.1) >>= _) = _
  rw [hB]
  exact hJ

/-- C65: with the same id given twice only the second block survives. -/
theorem C65_same_id (o : LeafOps L) (blocks : CState K L → CState K L → Except Err (DMat × DMat)) (l : List (CState K L)) {i : K}
    {p : ℕ} (hp : FirstWithId l i p) (B1 B2 : DMat) (hB : blocks (l[p]'hp.1) (l[p]'hp.1) = .ok (B1, B2)) :
    twoJacobian o blocks i i l = jacobianFromBlocks o l [(i, B2)] := by
  unfold twoJacobian
  rw [getState_ok l i p hp]
  show (blocks (l[p]'hp.1) (l[p]'hp.1) >>= _) = _
  rw [hB]
  show jacobianFromBlocks o l (blockDictSet (blockDictSet [] i B1) i B2) = _
  rw [blockDictSet_same]

theorem first_zero (a : CState K L) (l : List (CState K L)) : FirstWithId (a :: l) a.id 0 :=
  ⟨by simp, rfl, fun j hj => absurd hj (by omega)⟩

theorem first_one (a b : CState K L) (l : List (CState K L)) (h : a.id ≠ b.id) : FirstWithId (a :: b :: l) b.id 1 := by
  refine ⟨by simp, rfl, fun j hj => ?_⟩
  obtain rfl : j = 0 := by omega
  exact h

/-- C65: wherever the named pose and landmark stand, `PointRelativePositionSLAM` puts the blocks of the pose and of the landmark
at the FIRST and SECOND sub-state (when the widths allow it). -/
theorem C65_slam_placement (o : LeafOps L) (blocks : CState K L → CState K L → Except Err (DMat × DMat)) (s0 s1 : CState K L)
    (rest : List (CState K L)) (hid : s0.id ≠ s1.id) {i j : K} {p q : ℕ} (hp : FirstWithId (s0 :: s1 :: rest) i p)
    (hq : FirstWithId (s0 :: s1 :: rest) j q) (B1 B2 : DMat)
    (hB : blocks ((s0 :: s1 :: rest)[p]'hp.1) ((s0 :: s1 :: rest)[q]'hq.1) = .ok (B1, B2)) (hr : B2.rows = B1.rows)
    (h1 : B1.cols = s0.dof o) (h2 : B2.cols = s1.dof o) :
    ∃ J, slamJacobian o blocks i j (s0 :: s1 :: rest) = .ok J ∧ BlocksAt o (s0 :: s1 :: rest) 0 1 B1 B2 J := by
  obtain ⟨J, hJ, h⟩ := two_blocks o (s0 :: s1 :: rest) (first_zero s0 _) (first_one s0 s1 rest hid) hid B1 B2 hr h1 h2
  refine ⟨J, ?_, h⟩
  unfold slamJacobian
  rw [getState_ok _ i p hp, getState_ok _ j q hq]
  show (blocks ((s0 :: s1 :: rest)[p]'hp.1) ((s0 :: s1 :: rest)[q]'hq.1) >>= _) = _
  rw [hB]
  exact hJ

/-- C65: for the default order, pose first and landmark second, this is the right place. -/
theorem C65_slam_default (o : LeafOps L) (blocks : CState K L → CState K L → Except Err (DMat × DMat)) (pose landmark : CState K L)
    (rest : List (CState K L)) (hid : pose.id ≠ landmark.id) :
    slamJacobian o blocks pose.id landmark.id (pose :: landmark :: rest) =
      twoJacobian o blocks pose.id landmark.id (pose :: landmark :: rest) := rfl

/-- C65 (finding): with a second landmark, a measurement of the SECOND one gets a Jacobian that blames the first: the columns of
the first landmark hold the derivative with respect to the second, the columns of the second are zero. -/
theorem C65_slam_wrong_landmark (o : LeafOps L) (blocks : CState K L → CState K L → Except Err (DMat × DMat))
    (pose l1 l2 : CState K L) (rest : List (CState K L)) (h01 : pose.id ≠ l1.id) (h02 : pose.id ≠ l2.id) (h12 : l1.id ≠ l2.id)
    (hd : l1.dof o = l2.dof o) (B1 B2 : DMat) (hB : blocks pose l2 = .ok (B1, B2)) (hr : B2.rows = B1.rows)
    (h1 : B1.cols = pose.dof o) (h2 : B2.cols = l2.dof o) :
    ∃ J, slamJacobian o blocks pose.id l2.id (pose :: l1 :: l2 :: rest) = .ok J ∧
      (∀ a b, a < B1.rows → b < l1.dof o → J.get a (pose.dof o + b) = B2.get a b) ∧
      ∀ a b, a < B1.rows → b < l2.dof o → J.get a (pose.dof o + l1.dof o + b) = 0 := by
  have hq : FirstWithId (pose :: l1 :: l2 :: rest) l2.id 2 := by
    refine ⟨by simp, rfl, fun k hk => ?_⟩
    rcases (by omega : k = 0 ∨ k = 1) with rfl | rfl
    · exact h02
    · exact h12
  obtain ⟨J, hJ, hrow, hcol, hb1, hb2, hz⟩ := C65_slam_placement o blocks pose l1 (l2 :: rest) h01 (first_zero pose _) hq B1 B2 hB hr h1
    (h2.trans hd.symm)
  have o0 : off o (pose :: l1 :: l2 :: rest) 0 = 0 := by simp [off, dofList]
  have o1 : off o (pose :: l1 :: l2 :: rest) 1 = pose.dof o := by simp [off, dofList]
  refine ⟨J, hJ, fun a b ha hb => ?_, fun a b ha hb => hz a _ ha ?_ ?_⟩
  · rw [← o1]
    exact hb2 a b ha (by omega)
  · rw [o0]; omega
  · rw [o1]; omega

/-- C65 (finding): with the landmark before the pose the call raises `ValueError` (a pose has more than one degree of freedom and
not as many as a landmark). -/
theorem C65_slam_swapped (o : LeafOps L) (blocks : CState K L → CState K L → Except Err (DMat × DMat)) (landmark pose : CState K L)
    (rest : List (CState K L)) (hid : landmark.id ≠ pose.id) (B1 B2 : DMat) (hB : blocks pose landmark = .ok (B1, B2))
    (h1 : B1.cols ≠ landmark.dof o) (h1' : B1.cols ≠ 1) :
    slamJacobian o blocks pose.id landmark.id (landmark :: pose :: rest) = .error .valueError := by
  unfold slamJacobian
  rw [getState_ok _ pose.id 1 (first_one landmark pose rest hid), getState_ok _ landmark.id 0 (first_zero landmark _)]
  show (blocks pose landmark >>= _) = _
  rw [hB]
  show jacobianFromBlocks o _ (blockDictSet (blockDictSet [] landmark.id B1) pose.id B2) = _
  rw [blockDictSet_two hid]
  show fillBlocks o _ [(landmark.id, B1), (pose.id, B2)] (DMat.zeros B1.rows (dofList o (landmark :: pose :: rest))) = _
  rw [fillBlocks, getSlice_ok o _ landmark.id 0 (first_zero landmark _)]
  have o0 : off o (landmark :: pose :: rest) 0 = 0 := by simp [off, dofList]
  have hl : (⟨off o (landmark :: pose :: rest) 0, off o (landmark :: pose :: rest) 0 + landmark.dof o⟩ : Slice).len
      (dofList o (landmark :: pose :: rest)) = landmark.dof o := by
    rw [o0]
    simp [Slice.len, dofList]
  have hs : (DMat.zeros B1.rows (dofList o (landmark :: pose :: rest))).setBlock ⟨0, B1.rows⟩
      ⟨off o (landmark :: pose :: rest) 0, off o (landmark :: pose :: rest) 0 + landmark.dof o⟩ B1 = .error .valueError := by
    unfold DMat.setBlock
    rw [if_neg]
    rintro ⟨_, h | h⟩
    · have h : B1.cols = (⟨off o (landmark :: pose :: rest) 0, off o (landmark :: pose :: rest) 0 + landmark.dof o⟩ : Slice).len
        (dofList o (landmark :: pose :: rest)) := h
      rw [hl] at h
      exact h1 h
    · exact h1' h
  show (DMat.setBlock _ _ _ _ >>= _) = _
  have hs' := hs
  simp only [List.getElem_cons_zero]
  rw [show (DMat.zeros B1.rows (dofList o (landmark :: pose :: rest))).rows = B1.rows from rfl, hs']
  rfl

/-- C65: a composite with a single sub-state (named by both ids) raises `IndexError`. -/
theorem C65_slam_single (o : LeafOps L) (blocks : CState K L → CState K L → Except Err (DMat × DMat)) (s : CState K L) (B : DMat × DMat)
    (hB : blocks s s = .ok B) : slamJacobian o blocks s.id s.id [s] = .error .indexError := by
  unfold slamJacobian
  rw [getState_ok _ s.id 0 (first_zero s _)]
  show (blocks s s >>= _) = _
  rw [hB]
  rfl

/-- A function of some of the coordinates: its Jacobian is zero in the other columns. -/
theorem HasJac.embed {κ κ' μ : Type} [Fintype κ] [DecidableEq κ] [Fintype κ'] [DecidableEq κ'] [Fintype μ]
    {f : (κ → ℝ) → μ → ℝ} {J0 : Matrix μ κ ℝ} (h : HasJac f J0) (π : κ → κ') (hπ : Function.Injective π) {J : Matrix μ κ' ℝ}
    (h1 : ∀ a k, J a (π k) = J0 a k) (h2 : ∀ a c, (∀ k, π k ≠ c) → J a c = 0) : HasJac (fun ξ => f fun k => ξ (π k)) J := by
  refine (h.hasVD.pull π).hasJac fun ξ => ?_
  funext a
  show ∑ c, J a c * ξ c = ∑ k, J0 a k * ξ (π k)
  symm
  refine Finset.sum_of_injOn π hπ.injOn (by simp) ?_ ?_
  · intro c _ hc
    rw [h2 a c fun k hk => hc ⟨k, by simp, hk⟩, zero_mul]
  · intro k _
    rw [h1]

/-- A matrix of run-time shape, read as an `m × n` matrix. -/
def DMat.toMatrix (A : DMat) (m n : ℕ) : Matrix (Fin m) (Fin n) ℝ := fun i j => A.get i j

theorem slice_ofFn {N : ℕ} (ξ : Fin N → ℝ) (s d : ℕ) (h : s + d ≤ N) :
    ((List.ofFn ξ).drop s).take d = List.ofFn fun k : Fin d => ξ ⟨s + k, by omega⟩ := by
  apply List.ext_getElem
  · simp; omega
  · intro k h1 h2
    simp

theorem first_plus (o : LeafOps L) {l l' : List (CState K L)} {dx : List ℝ} (h : plusList o l dx = .ok l') {i : K} {p : ℕ}
    (hp : FirstWithId l i p) : FirstWithId l' i p := by
  obtain ⟨h1, h2⟩ := C25_plus_blockwise o l l' dx h
  have := hp.1
  refine ⟨by omega, ?_, ?_⟩
  · rw [plus_id o _ _ _ (h2 p hp.1 (by omega))]; exact hp.2.1
  · intro j hj
    rw [plus_id o _ _ _ (h2 j (by omega) (by omega))]; exact hp.2.2 j hj

theorem composite_core (o : LeafOps L) {m : ℕ} {β : Type} (f : CState K L → CState K L → Except Err β) (out : (Fin m → ℝ) → β)
    (blocks : CState K L → CState K L → Except Err (DMat × DMat)) (l : List (CState K L)) {i j : K}
    {p q : ℕ} (hp : FirstWithId l i p) (hq : FirstWithId l j q) (hij : i ≠ j) (B1 B2 : DMat)
    (hB : blocks (l[p]'hp.1) (l[q]'hq.1) = .ok (B1, B2)) (hr1 : B1.rows = m) (hr2 : B2.rows = m)
    (h1 : B1.cols = (l[p]'hp.1).dof o) (h2 : B2.cols = (l[q]'hq.1).dof o)
    (y : (Fin ((l[p]'hp.1).dof o) ⊕ Fin ((l[q]'hq.1).dof o) → ℝ) → Fin m → ℝ)
    (good : (Fin ((l[p]'hp.1).dof o) ⊕ Fin ((l[q]'hq.1).dof o) → ℝ) → Prop)
    (hy : ∀ ξ, good ξ → ∀ a b, (l[p]'hp.1).plus o (List.ofFn fun k => ξ (.inl k)) = .ok a →
      (l[q]'hq.1).plus o (List.ofFn fun k => ξ (.inr k)) = .ok b → f a b = .ok (out (y ξ)))
    (hJ : HasJac y (fromCols (B1.toMatrix m _) (B2.toMatrix m _))) :
    ∃ (J : DMat) (Y : (Fin (dofList o l) → ℝ) → Fin m → ℝ)
      (π : Fin ((l[p]'hp.1).dof o) ⊕ Fin ((l[q]'hq.1).dof o) → Fin (dofList o l)), twoJacobian o blocks i j l = .ok J ∧ J.rows = m ∧
      J.cols = dofList o l ∧
      (∀ ξ, good (fun k => ξ (π k)) → ∀ l', plusList o l (List.ofFn ξ) = .ok l' → twoEval f i j l' = .ok (out (Y ξ))) ∧ HasJac Y (J.toMatrix m (dofList o l)) := by
  obtain ⟨J, eJ, hrow, hcol, hb1, hb2, hz⟩ := C65_by_id o blocks l hp hq hij B1 B2 hB (by omega) h1 h2
  have hpq : p ≠ q := by
    rintro rfl
    exact hij (hp.2.1.symm.trans hq.2.1)
  have b1 := off_end_le o l p hp.1
  have b2 := off_end_le o l q hq.1
  let π : Fin ((l[p]'hp.1).dof o) ⊕ Fin ((l[q]'hq.1).dof o) → Fin (dofList o l) :=
    Sum.elim (fun k => ⟨off o l p + k, by omega⟩) (fun k => ⟨off o l q + k, by omega⟩)
  have hπ : Function.Injective π := by
    rintro (a | a) (b | b) h
    · have h : off o l p + (a : ℕ) = off o l p + b := congrArg Fin.val h
      congr 1; ext; omega
    · have h : off o l p + (a : ℕ) = off o l q + b := congrArg Fin.val h
      exact absurd (off_disjoint o l hp.1 hq.1 (a := off o l p + a) (by omega) (by omega) (by omega) (by omega)) hpq
    · have h : off o l q + (a : ℕ) = off o l p + b := congrArg Fin.val h
      exact absurd (off_disjoint o l hp.1 hq.1 (a := off o l q + a) (by omega) (by omega) (by omega) (by omega)) hpq
    · have h : off o l q + (a : ℕ) = off o l q + b := congrArg Fin.val h
      congr 1; ext; omega
  refine ⟨J, fun ξ => y fun k => ξ (π k), π, eJ, by omega, hcol, fun ξ hg l' hl' => ?_, hJ.embed π hπ ?_ ?_⟩
  · obtain ⟨e1, e2⟩ := C25_plus_blockwise o l l' _ hl'
    unfold twoEval
    rw [getState_ok l' i p (first_plus o hl' hp), getState_ok l' j q (first_plus o hl' hq)]
    refine hy _ hg _ _ ?_ ?_
    · have := e2 p hp.1 (first_plus o hl' hp).1
      rwa [slice_ofFn ξ _ _ b1] at this
    · have := e2 q hq.1 (first_plus o hl' hq).1
      rwa [slice_ofFn ξ _ _ b2] at this
  · rintro a (k | k)
    · exact hb1 a k (by omega) (by omega)
    · exact hb2 a k (by omega) (by omega)
  · intro a c hc
    refine hz a c (by omega) ?_ ?_
    · rintro ⟨u, v⟩
      refine hc (.inl ⟨c - off o l p, by omega⟩) ?_
      ext
      show off o l p + (c - off o l p) = (c : ℕ)
      omega
    · rintro ⟨u, v⟩
      refine hc (.inr ⟨c - off o l q, by omega⟩) ?_
      ext
      show off o l q + (c - off o l q) = (c : ℕ)
      omega

/-- **C65.** If the two blocks together are the derivative of the formula with respect to the two sub-states, the matrix returned
for the WHOLE composite state is the derivative of the measurement with respect to the whole composite state, wherever the two
sub-states stand. -/
theorem C65_composite_derivative (o : LeafOps L) {m : ℕ} (f : CState K L → CState K L → Except Err (Fin m → ℝ))
    (blocks : CState K L → CState K L → Except Err (DMat × DMat)) (l : List (CState K L)) {i j : K}
    {p q : ℕ} (hp : FirstWithId l i p) (hq : FirstWithId l j q) (hij : i ≠ j) (B1 B2 : DMat)
    (hB : blocks (l[p]'hp.1) (l[q]'hq.1) = .ok (B1, B2)) (hr1 : B1.rows = m) (hr2 : B2.rows = m)
    (h1 : B1.cols = (l[p]'hp.1).dof o) (h2 : B2.cols = (l[q]'hq.1).dof o)
    (y : (Fin ((l[p]'hp.1).dof o) ⊕ Fin ((l[q]'hq.1).dof o) → ℝ) → Fin m → ℝ)
    (hy : ∀ ξ a b, (l[p]'hp.1).plus o (List.ofFn fun k => ξ (.inl k)) = .ok a →
      (l[q]'hq.1).plus o (List.ofFn fun k => ξ (.inr k)) = .ok b → f a b = .ok (y ξ))
    (hJ : HasJac y (fromCols (B1.toMatrix m _) (B2.toMatrix m _))) :
    ∃ (J : DMat) (Y : (Fin (dofList o l) → ℝ) → Fin m → ℝ), twoJacobian o blocks i j l = .ok J ∧ J.rows = m ∧
      J.cols = dofList o l ∧
      (∀ ξ l', plusList o l (List.ofFn ξ) = .ok l' → twoEval f i j l' = .ok (Y ξ)) ∧ HasJac Y (J.toMatrix m (dofList o l)) := by
  obtain ⟨J, Y, π, e1, e2, e3, e4, e5⟩ := composite_core o f (fun y => y) blocks l hp hq hij B1 B2 hB hr1 hr2 h1 h2 y (fun _ => True)
    (fun ξ _ => hy ξ) hJ
  exact ⟨J, Y, e1, e2, e3, fun ξ => e4 ξ trivial, e5⟩

/-- **C65**, for a formula that is defined near the state only (a camera). -/
theorem C65_composite_derivative_local (o : LeafOps L) {m : ℕ} {β : Type} (f : CState K L → CState K L → Except Err β)
    (out : (Fin m → ℝ) → β)
    (blocks : CState K L → CState K L → Except Err (DMat × DMat)) (l : List (CState K L)) {i j : K}
    {p q : ℕ} (hp : FirstWithId l i p) (hq : FirstWithId l j q) (hij : i ≠ j) (B1 B2 : DMat)
    (hB : blocks (l[p]'hp.1) (l[q]'hq.1) = .ok (B1, B2)) (hr1 : B1.rows = m) (hr2 : B2.rows = m)
    (h1 : B1.cols = (l[p]'hp.1).dof o) (h2 : B2.cols = (l[q]'hq.1).dof o)
    (y : (Fin ((l[p]'hp.1).dof o) ⊕ Fin ((l[q]'hq.1).dof o) → ℝ) → Fin m → ℝ)
    (hy : ∀ᶠ ξ in nhds 0, ∀ a b, (l[p]'hp.1).plus o (List.ofFn fun k => ξ (.inl k)) = .ok a →
      (l[q]'hq.1).plus o (List.ofFn fun k => ξ (.inr k)) = .ok b → f a b = .ok (out (y ξ)))
    (hJ : HasJac y (fromCols (B1.toMatrix m _) (B2.toMatrix m _))) :
    ∃ (J : DMat) (Y : (Fin (dofList o l) → ℝ) → Fin m → ℝ), twoJacobian o blocks i j l = .ok J ∧ J.rows = m ∧
      J.cols = dofList o l ∧
      (∀ᶠ ξ in nhds 0, ∀ l', plusList o l (List.ofFn ξ) = .ok l' → twoEval f i j l' = .ok (out (Y ξ))) ∧
      HasJac Y (J.toMatrix m (dofList o l)) := by
  obtain ⟨J, Y, π, e1, e2, e3, e4, e5⟩ := composite_core o f out blocks l hp hq hij B1 B2 hB hr1 hr2 h1 h2 y _ (fun ξ h => h) hJ
  refine ⟨J, Y, e1, e2, e3, ?_, e5⟩
  have ht : Filter.Tendsto (fun (ξ : Fin (dofList o l) → ℝ) k => ξ (π k)) (nhds 0) (nhds 0) :=
    Continuous.tendsto' (continuous_pi fun k => continuous_apply _) _ _ rfl
  exact (ht.eventually hy).mono e4

section

variable {S₁ S₂ κ₁ κ₂ : Type} [Fintype κ₁] [DecidableEq κ₁] [Fintype κ₂] [DecidableEq κ₂]

/-- Elementary states of two classes, with the order in which each class lays out its degrees of freedom. A vector of the wrong
length raises. -/
def twoClasses {d₁ d₂ : ℕ} (p₁ : S₁ → (κ₁ → ℝ) → S₁) (p₂ : S₂ → (κ₂ → ℝ) → S₂) (e₁ : κ₁ ≃ Fin d₁) (e₂ : κ₂ ≃ Fin d₂) :
    LeafOps (S₁ ⊕ S₂) where
  dof := Sum.elim (fun _ => d₁) (fun _ => d₂)
  plus x dx := match x with
    | .inl a => if h : dx.length = d₁ then .ok (.inl (p₁ a fun k => dx[e₁ k])) else .error .valueError
    | .inr b => if h : dx.length = d₂ then .ok (.inr (p₂ b fun k => dx[e₂ k])) else .error .valueError
  minus _ _ := .error .notImplemented
  plusJac _ _ := .error .notImplemented
  minusJac _ _ := .error .notImplemented

/-- A formula for a state of the first class and one of the second. -/
def onPair {β : Type} (f : S₁ × S₂ → Except Err β) : CState K (S₁ ⊕ S₂) → CState K (S₁ ⊕ S₂) → Except Err β
  | .leaf _ _ (.inl a), .leaf _ _ (.inr b) => f (a, b)
  | _, _ => .error .typeError

/-- An array from a matrix. -/
noncomputable def DMat.ofMatrix {κ : Type} {m d : ℕ} (e : κ ≃ Fin d) (J : Matrix (Fin m) κ ℝ) : DMat :=
  ⟨m, d, fun i j => if h : i < m ∧ j < d then J ⟨i, h.1⟩ (e.symm ⟨j, h.2⟩) else 0⟩

theorem two_plus_inl {d₁ d₂ : ℕ} (p₁ : S₁ → (κ₁ → ℝ) → S₁) (p₂ : S₂ → (κ₂ → ℝ) → S₂) (e₁ : κ₁ ≃ Fin d₁) (e₂ : κ₂ ≃ Fin d₂)
    {c a : CState K (S₁ ⊕ S₂)} {i : K} {s : Option ℝ} {x : S₁} (hc : c = .leaf i s (.inl x)) {dx : List ℝ}
    (h : c.plus (twoClasses p₁ p₂ e₁ e₂) dx = .ok a) (hl : dx.length = d₁) : a = .leaf i s (.inl (p₁ x fun k => dx[e₁ k])) := by
  rw [hc, CState.plus] at h
  obtain ⟨v, hv, hv'⟩ := bind_ok h
  cases hv'
  simp only [twoClasses] at hv
  rw [dif_pos hl] at hv
  cases hv
  rfl

theorem two_plus_inr {d₁ d₂ : ℕ} (p₁ : S₁ → (κ₁ → ℝ) → S₁) (p₂ : S₂ → (κ₂ → ℝ) → S₂) (e₁ : κ₁ ≃ Fin d₁) (e₂ : κ₂ ≃ Fin d₂)
    {c a : CState K (S₁ ⊕ S₂)} {i : K} {s : Option ℝ} {x : S₂} (hc : c = .leaf i s (.inr x)) {dx : List ℝ}
    (h : c.plus (twoClasses p₁ p₂ e₁ e₂) dx = .ok a) (hl : dx.length = d₂) : a = .leaf i s (.inr (p₂ x fun k => dx[e₂ k])) := by
  rw [hc, CState.plus] at h
  obtain ⟨v, hv, hv'⟩ := bind_ok h
  cases hv'
  simp only [twoClasses] at hv
  rw [dif_pos hl] at hv
  cases hv
  rfl

/-- **C65.** A model of two sub-states whose blocks are exact (C64) is exact on every composite state that contains them: for
`RangePoseToPose` and `CameraProjection` in any order, for `PointRelativePositionSLAM` when pose and landmark come first
(`C65_slam_default`). -/
theorem C65_exact {d₁ d₂ m : ℕ} (p₁ : S₁ → (κ₁ → ℝ) → S₁) (p₂ : S₂ → (κ₂ → ℝ) → S₂) (e₁ : κ₁ ≃ Fin d₁) (e₂ : κ₂ ≃ Fin d₂)
    (ev : S₁ × S₂ → Except Err (Fin m → ℝ)) (jac : S₁ × S₂ → Except Err (Matrix (Fin m) κ₁ ℝ × Matrix (Fin m) κ₂ ℝ))
    (x₁ : S₁) (x₂ : S₂) (hE : JacExact (pairPlus p₁ p₂) ev (fun x => pairJac (jac x)) (x₁, x₂))
    (l : List (CState K (S₁ ⊕ S₂))) {i j : K} {p q : ℕ} (hp : FirstWithId l i p) (hq : FirstWithId l j q) (hij : i ≠ j)
    (s₁ s₂ : Option ℝ) (h1 : l[p]'hp.1 = .leaf i s₁ (.inl x₁)) (h2 : l[q]'hq.1 = .leaf j s₂ (.inr x₂)) :
    ∃ (J : DMat) (Y : (Fin (dofList (twoClasses p₁ p₂ e₁ e₂) l) → ℝ) → Fin m → ℝ),
      twoJacobian (twoClasses p₁ p₂ e₁ e₂) (onPair fun x => (jac x).map fun B => (DMat.ofMatrix e₁ B.1, DMat.ofMatrix e₂ B.2)) i j l =
        .ok J ∧ J.rows = m ∧ J.cols = dofList (twoClasses p₁ p₂ e₁ e₂) l ∧
      (∀ ξ l', plusList (twoClasses p₁ p₂ e₁ e₂) l (List.ofFn ξ) = .ok l' → twoEval (onPair ev) i j l' = .ok (Y ξ)) ∧
      HasJac Y (J.toMatrix m _) := by
  obtain ⟨y, J, hy, hJ, hD⟩ := hE
  change pairJac (jac (x₁, x₂)) = .ok J at hJ
  have hJ' : ∃ B, jac (x₁, x₂) = .ok B ∧ J = fromCols B.1 B.2 := by
    cases hB : jac (x₁, x₂) with
    | error e => rw [hB] at hJ; cases hJ
    | ok B =>
      rw [hB] at hJ
      exact ⟨B, rfl, (Except.ok.inj hJ).symm⟩
  obtain ⟨B, hB, rfl⟩ := hJ'
  have t1 : (l[p]'hp.1).dof (twoClasses p₁ p₂ e₁ e₂) = d₁ := by rw [h1]; rfl
  have t2 : (l[q]'hq.1).dof (twoClasses p₁ p₂ e₁ e₂) = d₂ := by rw [h2]; rfl
  let π : κ₁ ⊕ κ₂ → Fin ((l[p]'hp.1).dof (twoClasses p₁ p₂ e₁ e₂)) ⊕ Fin ((l[q]'hq.1).dof (twoClasses p₁ p₂ e₁ e₂)) :=
    Sum.map (fun k => (e₁ k).cast t1.symm) (fun k => (e₂ k).cast t2.symm)
  refine C65_composite_derivative (twoClasses p₁ p₂ e₁ e₂) (onPair ev) _ l hp hq hij (DMat.ofMatrix e₁ B.1) (DMat.ofMatrix e₂ B.2) ?_
    rfl rfl t1.symm t2.symm (fun ξ => y fun k => ξ (π k)) ?_ (hD.embed π ?_ ?_ ?_)
  · rw [h1, h2]
    show (jac (x₁, x₂)).map _ = _
    rw [hB]; rfl
  · intro ξ a b ha hb
    have ha' : a = .leaf i s₁ (.inl (p₁ x₁ fun k => ξ (.inl ((e₁ k).cast t1.symm)))) := by
      have hl : (List.ofFn fun k => ξ (.inl k)).length = d₁ := by simp [t1]
      rw [two_plus_inl p₁ p₂ e₁ e₂ h1 ha hl]
      congr 3
      funext k
      simp
      rfl
    have hb' : b = .leaf j s₂ (.inr (p₂ x₂ fun k => ξ (.inr ((e₂ k).cast t2.symm)))) := by
      have hl : (List.ofFn fun k => ξ (.inr k)).length = d₂ := by simp [t2]
      rw [two_plus_inr p₁ p₂ e₁ e₂ h2 hb hl]
      congr 3
      funext k
      simp
      rfl
    rw [ha', hb']
    exact hy fun k => ξ (π k)
  · rintro (a | a) (b | b) h
    · simpa [π] using h
    · simp [π] at h
    · simp [π] at h
    · simpa [π] using h
  · rintro a (k | k)
    · show (DMat.ofMatrix e₁ B.1).get a (e₁ k) = B.1 a k
      simp [DMat.ofMatrix]
    · show (DMat.ofMatrix e₂ B.2).get a (e₂ k) = B.2 a k
      simp [DMat.ofMatrix]
  · rintro a (c | c) hc
    · exact absurd (by simp [π]) (hc (.inl (e₁.symm (c.cast t1))))
    · exact absurd (by simp [π]) (hc (.inr (e₂.symm (c.cast t2))))

end

/-- The pose and the landmark of a SLAM problem with `SE3State` poses. -/
noncomputable abbrev slamOps : LeafOps (GSt (Fin 3 ⊕ Fin 1) ⊕ Vec 3) :=
  twoClasses (se3Ops.plus) vecPlus (finSumFinEquiv (m := 3) (n := 3)) (Equiv.refl (Fin 3))

/-- **C65.** In the default layout (pose first, then the landmark, then anything) the Jacobian `PointRelativePositionSLAM` returns
for an `SE3State` is the derivative of the measurement with respect to the whole composite state. -/
theorem C65_slam_exact (x : GSt (Fin 3 ⊕ Fin 1)) (hx : IsSE3 x.value) (r : Vec 3) (i j : K) (hij : i ≠ j) (s₁ s₂ : Option ℝ)
    (rest : List (CState K (GSt (Fin 3 ⊕ Fin 1) ⊕ Vec 3))) :
    ∃ (J : DMat) (Y : (Fin (dofList slamOps (.leaf i s₁ (.inl x) :: .leaf j s₂ (.inr r) :: rest)) → ℝ) → Fin 3 → ℝ),
      slamJacobian slamOps (onPair fun x => (slamBlocks se3Ops so3Att x.1 x.2).map fun B =>
        (DMat.ofMatrix finSumFinEquiv B.1, DMat.ofMatrix (Equiv.refl _) B.2)) i j (.leaf i s₁ (.inl x) :: .leaf j s₂ (.inr r) :: rest) =
          .ok J ∧ J.rows = 3 ∧ J.cols = dofList slamOps (.leaf i s₁ (.inl x) :: .leaf j s₂ (.inr r) :: rest) ∧
      (∀ ξ l', plusList slamOps (.leaf i s₁ (.inl x) :: .leaf j s₂ (.inr r) :: rest) (List.ofFn ξ) = .ok l' →
        twoEval (onPair fun x => slamEval se3Ops x.1 x.2) i j l' = .ok (Y ξ)) ∧ HasJac Y (J.toMatrix 3 _) := by
  refine C65_exact se3Ops.plus vecPlus finSumFinEquiv (Equiv.refl _) (fun x => slamEval se3Ops x.1 x.2)
    (fun x => slamBlocks se3Ops so3Att x.1 x.2) x r (C64_slam.1 (x, r) hx) (.leaf i s₁ (.inl x) :: .leaf j s₂ (.inr r) :: rest)
    (p := 0) (q := 1) ⟨by simp, rfl, fun k hk => absurd hk (by omega)⟩ ⟨by simp, rfl, fun k hk => ?_⟩ hij s₁ s₂ rfl rfl
  obtain rfl : k = 0 := by omega
  exact hij

/-- The perturbed composites of `C65_exact` exist: `plus` succeeds on every composite of elementary states. -/
theorem two_plus_total {S₁ S₂ κ₁ κ₂ : Type} [Fintype κ₁] [DecidableEq κ₁] [Fintype κ₂] [DecidableEq κ₂] {d₁ d₂ : ℕ}
    (p₁ : S₁ → (κ₁ → ℝ) → S₁) (p₂ : S₂ → (κ₂ → ℝ) → S₂) (e₁ : κ₁ ≃ Fin d₁) (e₂ : κ₂ ≃ Fin d₂) (l : List (K × Option ℝ × (S₁ ⊕ S₂)))
    (dx : List ℝ) (h : dx.length = dofList (twoClasses p₁ p₂ e₁ e₂) (l.map fun c => CState.leaf c.1 c.2.1 c.2.2)) :
    ∃ l', plusList (twoClasses p₁ p₂ e₁ e₂) (l.map fun c => CState.leaf c.1 c.2.1 c.2.2) dx = .ok l' := by
  induction l generalizing dx with
  | nil => exact ⟨[], rfl⟩
  | cons c l ih =>
    obtain ⟨i, s, x⟩ := c
    simp only [List.map_cons, dofList, CState.dof] at h
    obtain ⟨l', hl'⟩ := ih (dx.drop ((twoClasses p₁ p₂ e₁ e₂).dof x)) (by simp; omega)
    have hx : ∃ v, (twoClasses p₁ p₂ e₁ e₂).plus x (dx.take ((twoClasses p₁ p₂ e₁ e₂).dof x)) = .ok v := by
      cases x with
      | inl a =>
        have : (dx.take d₁).length = d₁ := by
          rw [List.length_take]
          have : d₁ ≤ dx.length := by rw [h]; exact Nat.le_add_right _ _
          omega
        exact ⟨_, dif_pos this⟩
      | inr a =>
        have : (dx.take d₂).length = d₂ := by
          rw [List.length_take]
          have : d₂ ≤ dx.length := by rw [h]; exact Nat.le_add_right _ _
          omega
        exact ⟨_, dif_pos this⟩
    obtain ⟨v, hv⟩ := hx
    refine ⟨.leaf i s v :: l', ?_⟩
    simp only [List.map_cons, plusList, CState.plus, CState.dof]
    rw [hv, hl']
    rfl

/-- Two landmarks, the measurement is of the second: the hypotheses of `C65_slam_wrong_landmark` are met. -/
example : ∃ J, slamJacobian (K := ℕ) slamOps (fun _ _ => .ok (⟨3, 6, fun _ _ => 1⟩, ⟨3, 3, fun a b => if a = b then 1 else 0⟩)) 0 2
    [.leaf 0 none (.inl (pose1 .right)), .leaf 1 none (.inr 0), .leaf 2 none (.inr ![1, 2, 3])] = .ok J ∧ J.get 0 6 = 1 ∧ J.get 0 9 = 0 := by
  obtain ⟨J, h1, h2, h3⟩ := C65_slam_wrong_landmark (K := ℕ) slamOps
    (fun _ _ => .ok (⟨3, 6, fun _ _ => 1⟩, ⟨3, 3, fun a b => if a = b then 1 else 0⟩))
    (.leaf 0 none (.inl (pose1 .right))) (.leaf 1 none (.inr 0)) (.leaf 2 none (.inr ![1, 2, 3])) [] (by simp [CState.id])
    (by simp [CState.id]) (by simp [CState.id]) rfl _ _ rfl rfl rfl rfl
  refine ⟨J, h1, ?_, ?_⟩
  · have := h2 0 0 (by norm_num) (show 0 < 3 by norm_num)
    exact this
  · exact h3 0 0 (by norm_num) (show 0 < 3 by norm_num)

end Verif
