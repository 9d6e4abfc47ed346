import Verif.Lemmas.HeapPlus

/-!
C84: `copy()` of states, estimates and inputs. A copy has the contents of the original and shares no object with
anything that existed before, so that no program holding only the copy can change the original and no program
holding only older objects can change the copy. `VectorInput` is the exception: its covariance is shared.
-/

namespace Verif.Heap

open Verif

set_option linter.unusedVariables false

/-! ### Specification -/

/-- `Reach h r q`: the object `q` can be reached from `r` by following attributes. -/
inductive Reach (h : Heap) (r : Ref) : Ref → Prop
  | refl : Reach h r r
  | step {q p : Ref} {o : Obj} : Reach h r q → h[q]? = some o → p ∈ o.refs → Reach h r p

/-- The object `r'` of the heap `h'` is separate from everything in the older heap `h`: the older objects are
unchanged, nothing reachable from `r'` is an older object, no program that starts with `r'` alone can change an older
object, and no program that starts with older objects can change anything reachable from `r'`. -/
def Separate (h h' : Heap) (r' : Ref) : Prop :=
  (∀ q, q < h.length → h'[q]? = h[q]?) ∧
  (∀ q, Reach h' r' q → h.length ≤ q) ∧
  (∀ (cs : List Cmd) (q : Ref), q < h.length → (runCmds cs h' [r']).1[q]? = h[q]?) ∧
  (∀ (cs : List Cmd) (vars : List Ref), (∀ v ∈ vars, v < h.length) →
    ∀ q, Reach h' r' q → (runCmds cs h' vars).1[q]? = h'[q]?)

/-! ### General facts -/

theorem Closed.reach {h : Heap} {A : Ref → Prop} (hA : Closed h A) {r q : Ref} (hr : A r) (hq : Reach h r q) :
    A q := by
  induction hq with
  | refl => exact hr
  | step _ ho hp ih => exact hA _ _ ho ih _ hp

/-- The new part of the heap is closed. -/
theorem closed_new {h new : Heap} {m : ℕ} (hm : m ≤ h.length) (hw : WF h) (hf : FreshFrom m h new) (hmm : m = h.length) :
    Closed (h ++ new) (fun q => h.length ≤ q ∧ q < (h ++ new).length) := by
  subst hmm
  intro r o ho hr q hq
  have : o ∈ new := by
    rw [List.getElem?_append_right hr.1] at ho
    exact List.mem_of_getElem? ho
  exact hf o this q hq

theorem separate_of {h new : Heap} {r' : Ref} (hw : WF h) (hf : FreshFrom h.length h new) (hr : h.length ≤ r')
    (hr2 : r' < (h ++ new).length) : Separate h (h ++ new) r' := by
  have hcl := closed_new (le_refl _) hw hf rfl
  have hreach : ∀ q, Reach (h ++ new) r' q → h.length ≤ q ∧ q < (h ++ new).length :=
    fun q hq => Closed.reach hcl ⟨hr, hr2⟩ hq
  refine ⟨fun q hq => List.getElem?_append_left hq, fun q hq => (hreach q hq).1, ?_, ?_⟩
  · intro cs q hq
    have hlen : h.length ≤ (h ++ new).length := by simp
    have := (confined (A := fun r => h.length ≤ r) cs (h ++ new) [r'] ?_ ?_).2 q (by omega)
      (lt_of_lt_of_le hq hlen)
    · rw [this, List.getElem?_append_left hq]
    · intro s o ho hs p hp
      have hs' : h.length ≤ s := by
        rcases hs with hs | hs
        · exact hs
        · exact le_trans hlen hs
      have : o ∈ new := by
        rw [List.getElem?_append_right hs'] at ho
        exact List.mem_of_getElem? ho
      exact Or.inl (hf o this p hp).1
    · intro v hv
      rw [List.mem_singleton.mp hv]
      exact Or.inl hr
  · intro cs vars hv q hq
    obtain ⟨q1, q2⟩ := hreach q hq
    refine (confined (A := fun r => r < h.length) cs (h ++ new) vars ?_ ?_).2 q (by omega) q2
    · intro s o ho hs p hp
      rcases hs with hs | hs
      · rw [List.getElem?_append_left hs] at ho
        exact Or.inl (hw o (List.mem_of_getElem? ho) p hp)
      · rw [List.getElem?_eq_none hs] at ho
        cases ho
    · exact fun v hv' => Or.inl (hv v hv')

/-- The contents of a separate state are those seen at the time of separation, whatever is done to older objects. -/
theorem Separate.contents {h h' : Heap} {r' : Ref} (hs : Separate h h' r') (k : ℕ) (cs : List Cmd)
    (vars : List Ref) (hv : ∀ v ∈ vars, v < h.length) :
    Heap.contents k (runCmds cs h' vars).1 r' = Heap.contents k h' r' :=
  contents_frame (A := Reach h' r') (fun r o ho hr q hq => Reach.step hr ho hq)
    (fun q hq => hs.2.2.2 cs vars hv q hq) k r' Reach.refl

/-- Conversely, older states keep their contents whatever is done to the separate one. -/
theorem Separate.contents_old {h h' : Heap} {r' : Ref} (hw : WF h) (hs : Separate h h' r') (k : ℕ) (cs : List Cmd)
    (q : Ref) (hq : q < h.length) : Heap.contents k (runCmds cs h' [r']).1 q = Heap.contents k h q :=
  contents_frame (A := fun r => r < h.length) (fun r o ho hr p hp => hw o (List.mem_of_getElem? ho) p hp)
    (fun q hq => hs.2.2.1 cs q hq) k q hq

/-! ### States -/

/-- C84: `copy()` of a state (vector, Lie group, composite of any nesting, IMU). -/
theorem C84_copy (Exp : LieCls → Arr → Arr) {k : ℕ} {h : Heap} {r : Ref} {t : STree} (hw : WF h)
    (hc : contents k h r = some t) :
    ∃ (r' : Ref) (h' : Heap), copyState Exp k h r = .ok (r', h') ∧ WF h' ∧
      contents k h' r' = some (copied t) ∧ contents k h' r = some t ∧ Separate h h' r' ∧
      (∀ cs : List Cmd, contents k (runCmds cs h' [r']).1 r = some t) ∧
      (∀ (cs : List Cmd) (vars : List Ref), (∀ v ∈ vars, v < h.length) →
        contents k (runCmds cs h' vars).1 r' = some (copied t)) := by
  obtain ⟨r', new, h1, h2, h3, h4, h5⟩ := copy_spec Exp k h r t hc
  have hs := separate_of hw h4 h2 h3
  have hrlt : r < h.length := by
    by_contra hn
    cases k with
    | zero => cases hc
    | succ k =>
      unfold contents at hc
      rw [List.getElem?_eq_none (not_lt.mp hn)] at hc
      cases hc
  refine ⟨r', h ++ new, h1, hw.grow h4, h5, contents_grow hc, hs, ?_, ?_⟩
  · intro cs
    rw [hs.contents_old hw k cs r hrlt, hc]
  · intro cs vars hv
    rw [hs.contents k cs vars hv, h5]

mutual
/-- No `IMUState` inside. -/
def STree.noImu : STree → Prop
  | .comp l _ _ => STree.noImus l
  | .imu _ _ _ _ _ => False
  | _ => True

/-- No `IMUState` inside any of the list. -/
def STree.noImus : List STree → Prop
  | [] => True
  | t :: ts => t.noImu ∧ STree.noImus ts
end

mutual
/-- C84: a copy has the same contents, for states without an `IMUState` inside. -/
theorem C84_same : ∀ t : STree, t.noImu → copied t = t
  | .vec _ _ _, _ => rfl
  | .lie _ _ _ _ _ _, _ => rfl
  | .comp l s i, h => by
    show STree.comp (copiedAll l) s i = _
    rw [C84_sames l h]
  | .imu _ _ _ _ _, h => h.elim

theorem C84_sames : ∀ l : List STree, STree.noImus l → copiedAll l = l
  | [], _ => rfl
  | t :: ts, h => by
    show copied t :: copiedAll ts = _
    rw [C84_same t h.1, C84_sames ts h.2]
end

/-- C84: a copy of an `IMUState` differs from the original exactly in the stamps and identifiers of its sub-states:
it is the same iff all three carry the stamp of the whole and the identifiers set by the constructor. -/
theorem C84_imu_same (n : ℕ) (M : Mat n n) (s0 s1 s2 s : Option ℝ) (i0 i1 i2 i : Id) (d : String)
    (g a : List ℝ) :
    copied (.imu (.lie .SE23 n M s0 i0 d) (.vec g s1 i1) (.vec a s2 i2) s i)
        = .imu (.lie .SE23 n M s (some "pose") d) (.vec g s (some "gyro_bias")) (.vec a s (some "accel_bias")) s i ∧
    (copied (.imu (.lie .SE23 n M s0 i0 d) (.vec g s1 i1) (.vec a s2 i2) s i)
        = .imu (.lie .SE23 n M s0 i0 d) (.vec g s1 i1) (.vec a s2 i2) s i ↔
      (s0 = s ∧ s1 = s ∧ s2 = s) ∧ i0 = some "pose" ∧ i1 = some "gyro_bias" ∧ i2 = some "accel_bias") := by
  refine ⟨rfl, ?_⟩
  constructor
  · intro h
    simp only [copied, rebuilt, STree.imu.injEq, STree.lie.injEq, STree.vec.injEq] at h
    obtain ⟨⟨_, _, _, h1, h2, _⟩, ⟨_, h3, h4⟩, ⟨_, h5, h6⟩, _⟩ := h
    exact ⟨⟨h1.symm, h3.symm, h5.symm⟩, h2.symm, h4.symm, h6.symm⟩
  · rintro ⟨⟨rfl, rfl, rfl⟩, rfl, rfl, rfl⟩
    rfl

/-- C84: the stamp of a copy is the stamp of the original. -/
theorem C84_stamp (t : STree) : (copied t).stamp = t.stamp := by
  cases t <;> rfl

/-- A nested example: a composite of a vector state and a pose. -/
def exHeap : Heap :=
  [.arr (.vec [1, 2]), .vec 0 2 (some 0) (some "v"), .arr (.mat 3 3 1), .lie .SE2 2 (some 0) (some "T") "right",
    .list [1, 3], .comp 4 (some 0) none]

def exTree : STree :=
  .comp [.vec [1, 2] (some 0) (some "v"), .lie .SE2 3 1 (some 0) (some "T") "right"] (some 0) none

theorem exHeap_wf : WF exHeap := by
  intro o ho q hq
  simp only [exHeap, List.mem_cons, List.not_mem_nil, or_false] at ho
  rcases ho with rfl | rfl | rfl | rfl | rfl | rfl <;> simp [Obj.refs] at hq <;>
    (try subst hq) <;> simp [exHeap]
  rcases hq with rfl | rfl <;> simp

theorem exHeap_contents : contents 2 exHeap 5 = some exTree := by
  have h1 : contents 1 exHeap 1 = some (.vec [1, 2] (some 0) (some "v")) :=
    contents_vec (l := [1, 2]) 0 rfl rfl
  have h3 : contents 1 exHeap 3 = some (.lie .SE2 3 1 (some 0) (some "T") "right") :=
    contents_lie (M := ⟨3, 1⟩) 0 rfl rfl (asSquare_mat _ (by decide))
  have h5 : exHeap[5]? = some (.comp 4 (some 0) none) := rfl
  have h4 : listAt exHeap 4 = some [1, 3] := rfl
  unfold contents
  rw [h5]
  show (listAt exHeap 4 >>= _) = _
  rw [h4]
  show (([1, 3] : List Nat).mapM (contents 1 exHeap) >>= fun ts => pure (STree.comp ts (some 0) none)) = some exTree
  rw [List.mapM_cons, List.mapM_cons, List.mapM_nil, h1, h3]
  rfl

example : WF exHeap ∧ contents 2 exHeap 5 = some exTree ∧ exTree.noImu :=
  ⟨exHeap_wf, exHeap_contents, ⟨trivial, trivial, trivial⟩⟩

/-! ### Estimates, mixtures, inputs, `plus` -/

/-- C84: `StateWithCovariance.copy()`. -/
theorem C84_estimate (Exp : LieCls → Arr → Arr) {k : ℕ} {h : Heap} {r : Ref} {t : STree} {P : Σ n, Mat n n}
    (hw : WF h) (hc : contentsSwc k h r = some (t, P)) :
    ∃ (r' : Ref) (h' : Heap), copySwc Exp k h r = .ok (r', h') ∧ WF h' ∧
      contentsSwc k h' r' = some (copied t, P) ∧ contentsSwc k h' r = some (t, P) ∧ Separate h h' r' := by
  obtain ⟨r', new, h1, h2, h3, h4, h5⟩ := copySwc_spec Exp h r (t, P) hc
  exact ⟨r', h ++ new, h1, hw.grow h4, h5, contentsSwc_grow _ _ _ _ hc, separate_of hw h4 h2 h3⟩

/-- C84: `MixtureState.copy()`. -/
theorem C84_mixture (Exp : LieCls → Arr → Arr) {k : ℕ} {h : Heap} {r : Ref}
    {xs : List (STree × Σ n, Mat n n)} {p : Arr} (hw : WF h) (hc : contentsMix k h r = some (xs, p)) :
    ∃ (r' : Ref) (h' : Heap), copyMix Exp k h r = .ok (r', h') ∧ WF h' ∧
      contentsMix k h' r' = some (xs.map fun x => (copied x.1, x.2), p) ∧ Separate h h' r' := by
  obtain ⟨r', new, h1, h2, h3, h4, h5⟩ := copyMix_spec Exp h r (xs, p) hc
  exact ⟨r', h ++ new, h1, hw.grow h4, h5, separate_of hw h4 h2 h3⟩

/-- C84: `copy()` of an input that contains no `VectorInput` with a covariance (`IMU` inputs may have one). -/
theorem C84_input {k : ℕ} {h : Heap} {r : Ref} {t : ITree} (hw : WF h) (hc : contentsInput k h r = some t)
    (hn : t.noVecCov) :
    ∃ (r' : Ref) (h' : Heap), copyInput k h r = .ok (r', h') ∧ WF h' ∧
      contentsInput k h' r' = some t ∧ Separate h h' r' := by
  obtain ⟨r', new, h1, h2, h3, h4, h5⟩ := copyInput_spec k h r t hc hn
  exact ⟨r', h ++ new, h1, hw.grow h4, h5, separate_of hw h4 h2 h3⟩

/-- C84 (the exception): a copy of a `VectorInput` with a covariance, documented as having "fully separate memory",
holds the SAME covariance object: writing into the covariance of the copy changes the original. -/
theorem C84_vector_input_shares {k : ℕ} {h : Heap} {r v c : Ref} {s : Option ℝ} {i : Id} {a C : Arr} (hw : WF h)
    (hr : h[r]? = some (.vinput v s i (some c))) (ha : arrAt h v = some a) (hC : arrAt h c = some C) (hcr : c ≠ v) :
    ∃ (r' : Ref) (h' : Heap), copyInput (k + 1) h r = .ok (r', h') ∧
      contentsInput (k + 1) h' r' = some (.vec a s i (some C)) ∧ Reach h' r' c ∧ Reach h' r c ∧
      ∀ C' : Arr, contentsInput (k + 1) (runCmds [.load 0 1, .store 1 (.arr C')] h' [r']).1 r
        = some (.vec a s i (some C')) := by
  have hrlt : r < h.length := (List.getElem?_eq_some_iff.mp hr).1
  have hclt : c < h.length := (List.getElem?_eq_some_iff.mp (arrAt_some hC)).1
  have hvlt : v < h.length := (List.getElem?_eq_some_iff.mp (arrAt_some ha)).1
  have hrc : r ≠ c := by
    rintro rfl
    have := arrAt_some hC
    rw [hr] at this
    cases this
  have e : copyInput (k + 1) h r = .ok (h.length + 1, h ++ [Obj.arr a, .vinput h.length s i (some c)]) := by
    unfold copyInput
    rw [hr]
    show (copyArr h v >>= _) = _
    rw [copyArr_spec ha]
    show Except.ok (newVinput _ _ _ _ _) = _
    simp [newVinput, alloc]
  have hget : (h ++ [Obj.arr a, .vinput h.length s i (some c)])[h.length + 1]? = some (.vinput h.length s i (some c)) :=
    get_off _ _ 1
  refine ⟨_, _, e, ?_, ?_, ?_, ?_⟩
  · unfold contentsInput
    rw [hget]
    show (arrAt _ h.length >>= _) = _
    rw [show arrAt (h ++ [Obj.arr a, .vinput h.length s i (some c)]) h.length = some a from arrAt_off (i := 0) rfl]
    show (covAt _ (some c) >>= _) = _
    rw [covAt_grow (C := some C) (by simp only [covAt]; rw [hC]; rfl)]
    rfl
  · exact Reach.step Reach.refl hget (by simp [Obj.refs])
  · exact Reach.step Reach.refl (get_grow hr) (by simp [Obj.refs])
  · intro C'
    have s1 : runCmds [.load 0 1, .store 1 (.arr C')] (h ++ [Obj.arr a, .vinput h.length s i (some c)]) [h.length + 1]
        = ((h ++ [Obj.arr a, .vinput h.length s i (some c)]).set c (.arr C'), [h.length + 1, c]) := by
      have l1 : (Cmd.load 0 1).step (h ++ [Obj.arr a, .vinput h.length s i (some c)]) [h.length + 1]
          = (h ++ [Obj.arr a, .vinput h.length s i (some c)], [h.length + 1, c]) := by
        simp [Cmd.step, Obj.refs]
      show runCmds [.store 1 (.arr C')] ((Cmd.load 0 1).step _ _).1 ((Cmd.load 0 1).step _ _).2 = _
      rw [l1]
      simp [runCmds, Cmd.step, Obj.refs]
    rw [s1]
    have hcl : c < (h ++ [Obj.arr a, .vinput h.length s i (some c)]).length := by simp; omega
    unfold contentsInput
    rw [set_get_ne hrc.symm, get_grow hr]
    show (arrAt _ v >>= _) = _
    have hv : arrAt ((h ++ [Obj.arr a, .vinput h.length s i (some c)]).set c (.arr C')) v = some a := by
      unfold arrAt
      rw [set_get_ne hcr, get_grow (arrAt_some ha)]
    have hcv : arrAt ((h ++ [Obj.arr a, .vinput h.length s i (some c)]).set c (.arr C')) c = some C' := by
      unfold arrAt
      rw [set_get_eq hcl]
    rw [hv]
    show (covAt _ (some c) >>= _) = _
    simp only [covAt, hcv]
    rfl

/-- C84: `x.plus(dx)` returns a separate object and leaves `x` alone. -/
theorem C84_plus (Exp : LieCls → Arr → Arr) (P : LiePlus) {k : ℕ} {h : Heap} {r : Ref} {t t' : STree}
    {dx : List ℝ} (hw : WF h) (hc : contents k h r = some t) (hp : plusTree P t dx = .ok t') :
    ∃ (r' : Ref) (h' : Heap), plusState Exp P k h r dx = .ok (r', h') ∧ WF h' ∧
      contents k h' r' = some t' ∧ contents k h' r = some t ∧ Separate h h' r' := by
  obtain ⟨r', new, h1, h2, h3, h4, h5⟩ := plus_spec Exp P k h r t dx t' hc hp
  exact ⟨r', h ++ new, h1, hw.grow h4, h5, contents_grow hc, separate_of hw h4 h2 h3⟩

/-- Adding the matrix of the perturbation: a stand-in for a group operation in the examples. -/
def exPlus : LiePlus := fun _ _ _ M _ => .ok (M + 1)

example : plusTree exPlus exTree [1, 1, 0, 0, 0]
    = .ok (.comp [.vec [1 + 1, 2 + 1] (some 0) (some "v"), .lie .SE2 3 (1 + 1) (some 0) (some "T") "right"]
        (some 0) none) := by
  simp [exTree, plusTree, plusTrees, plusLeaf, exPlus, STree.dof, LieCls.dof]
  rfl

/-- A vector input with a covariance, and an estimate. -/
noncomputable def exHeap2 : Heap :=
  [.arr (.vec [1, 2]), .arr (.mat 2 2 1), .vinput 0 (some 0) none (some 1), .vec 0 2 (some 0) none, .swc 3 1,
    .list [4, 4], .arr (.vec [1 / 2, 1 / 2]), .mix 5 6]

theorem exHeap2_wf : WF exHeap2 := by
  intro o ho q hq
  simp only [exHeap2, List.mem_cons, List.not_mem_nil, or_false] at ho
  rcases ho with rfl | rfl | rfl | rfl | rfl | rfl | rfl | rfl <;> simp [Obj.refs] at hq <;>
    (try subst hq) <;> (try simp [exHeap2]) <;> (try rcases hq with rfl | rfl <;> simp)

theorem exHeap2_contents : contentsSwc 1 exHeap2 4 = some (.vec [1, 2] (some 0) none, ⟨2, 1⟩) :=
  contentsSwc_intro (s := 3) (c := 1) rfl (contents_vec (l := [1, 2]) 0 rfl rfl) rfl rfl

example : WF exHeap2 ∧ exHeap2[2]? = some (.vinput 0 (some 0) none (some 1)) ∧ arrAt exHeap2 0 = some (.vec [1, 2]) ∧
    arrAt exHeap2 1 = some (.mat 2 2 1) ∧ contentsSwc 1 exHeap2 4 = some (.vec [1, 2] (some 0) none, ⟨2, 1⟩) :=
  ⟨exHeap2_wf, rfl, rfl, rfl, exHeap2_contents⟩

end Verif.Heap
