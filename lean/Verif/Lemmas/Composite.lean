import Verif.Model.Composite
import Verif.Lemmas.Iekf
import Mathlib.Tactic.Linarith
import Mathlib.Data.List.Basic

/-! Helper lemmas about the composite model. -/

namespace Verif

set_option linter.unusedVariables false
set_option linter.unusedSectionVars false

open CState

variable {K L U : Type}

/-- Specification: first coordinate of the `k`-th sub-state. -/
def off (o : LeafOps L) (l : List (CState K L)) (k : ℕ) : ℕ := dofList o (l.take k)

theorem off_zero (o : LeafOps L) (l : List (CState K L)) : off o l 0 = 0 := by
  simp [off, dofList]

theorem off_cons (o : LeafOps L) (x : CState K L) (l : List (CState K L)) (k : ℕ) :
    off o (x :: l) (k + 1) = x.dof o + off o l k := by
  simp [off, dofList]

theorem off_succ (o : LeafOps L) (l : List (CState K L)) (k : ℕ) (h : k < l.length) :
    off o l (k + 1) = off o l k + (l[k]).dof o := by
  induction l generalizing k with
  | nil => simp at h
  | cons x l ih =>
    cases k with
    | zero => rw [off_cons, off_zero, off_zero]; simp
    | succ k =>
      rw [off_cons, off_cons, ih k (by simpa using h)]
      simp [Nat.add_assoc]

theorem off_length (o : LeafOps L) (l : List (CState K L)) : off o l l.length = dofList o l := by
  simp [off]

theorem off_mono (o : LeafOps L) (l : List (CState K L)) {j k : ℕ} (h : j ≤ k) : off o l j ≤ off o l k := by
  induction l generalizing j k with
  | nil => simp [off, dofList]
  | cons x l ih =>
    cases j with
    | zero => rw [off_zero]; exact Nat.zero_le _
    | succ j =>
      cases k with
      | zero => omega
      | succ k => rw [off_cons, off_cons]; have := ih (j := j) (k := k) (by omega); omega

theorem off_le (o : LeafOps L) (l : List (CState K L)) (k : ℕ) : off o l k ≤ dofList o l := by
  rcases Nat.lt_or_ge k l.length with h | h
  · rw [← off_length]; exact off_mono o l h.le
  · simp [off, List.take_of_length_le h]

theorem off_end_le (o : LeafOps L) (l : List (CState K L)) (k : ℕ) (h : k < l.length) :
    off o l k + (l[k]).dof o ≤ dofList o l := by
  rw [← off_succ o l k h]; exact off_le _ _ _

/-- intervals of different sub-states are disjoint -/
theorem off_disjoint (o : LeafOps L) (l : List (CState K L)) {j k a : ℕ} (hj : j < l.length)
    (hk : k < l.length) (h1 : off o l j ≤ a) (h2 : a < off o l j + (l[j]).dof o)
    (h3 : off o l k ≤ a) (h4 : a < off o l k + (l[k]).dof o) : j = k := by
  rw [← off_succ] at h2 h4
  rcases lt_trichotomy j k with h | h | h
  · have := off_mono o l (j := j + 1) (k := k) h; omega
  · exact h
  · have := off_mono o l (j := k + 1) (k := j) h; omega

/-- every coordinate lies in a sub-state -/
theorem off_cover (o : LeafOps L) (l : List (CState K L)) (a : ℕ) (h : a < dofList o l) :
    ∃ (k : ℕ) (hk : k < l.length), off o l k ≤ a ∧ a < off o l k + (l[k]).dof o := by
  induction l generalizing a with
  | nil => simp [dofList] at h
  | cons x l ih =>
    by_cases hx : a < x.dof o
    · exact ⟨0, by simp, by rw [off_zero]; omega, by rw [off_zero]; simpa using hx⟩
    · simp [dofList] at h
      obtain ⟨k, hk, h1, h2⟩ := ih (a - x.dof o) (by omega)
      refine ⟨k + 1, by simpa using hk, ?_, ?_⟩
      · rw [off_cons]; omega
      · rw [off_cons]; simp; omega

theorem slicesFrom_get (o : LeafOps L) (l : List (CState K L)) (c k : ℕ) (hk : k < l.length) :
    (slicesFrom o c l)[k]? = some ⟨c + off o l k, c + off o l k + (l[k]).dof o⟩ := by
  induction l generalizing c k with
  | nil => simp at hk
  | cons x l ih =>
    cases k with
    | zero => simp [slicesFrom, off_zero]
    | succ k =>
      rw [slicesFrom, List.getElem?_cons_succ, ih (c + x.dof o) k (by simpa using hk), off_cons]
      simp [Nat.add_assoc]

theorem slicesFrom_length (o : LeafOps L) (l : List (CState K L)) (c : ℕ) :
    (slicesFrom o c l).length = l.length := by
  induction l generalizing c with
  | nil => rfl
  | cons x l ih => simp [slicesFrom, ih]

theorem pyGet_ok {α : Type} {l : List α} {k : ℕ} (h : k < l.length) : pyGet l k = .ok l[k] := by
  unfold pyGet; rw [List.getElem?_eq_getElem h]

theorem pyGet_err {α : Type} {l : List α} {k : ℕ} (h : l.length ≤ k) : pyGet l k = .error .indexError := by
  unfold pyGet; rw [List.getElem?_eq_none h]

variable [DecidableEq K]

/-- Specification: `k` is the position of the first sub-state with identifier `i`. -/
def FirstWithId (l : List (CState K L)) (i : K) (k : ℕ) : Prop :=
  ∃ h : k < l.length, (l[k]).id = i ∧ ∀ j (hj : j < k), (l[j]'(hj.trans h)).id ≠ i

theorem getIndex_ok_iff (l : List (CState K L)) (i : K) (k : ℕ) :
    getIndexById l i = .ok k ↔ FirstWithId l i k := by
  unfold getIndexById
  constructor
  · intro h
    split at h
    · rename_i k' hk
      cases h
      rw [List.findIdx?_eq_some_iff_getElem] at hk
      obtain ⟨h1, h2, h3⟩ := hk
      refine ⟨h1, by simpa using h2, ?_⟩
      intro j hj
      have := h3 j hj
      simpa using this
    · cases h
  · rintro ⟨h1, h2, h3⟩
    have : l.findIdx? (fun x => decide (x.id = i)) = some k := by
      rw [List.findIdx?_eq_some_iff_getElem]
      exact ⟨h1, by simpa using h2, fun j hj => by simpa using h3 j hj⟩
    rw [this]

theorem getIndex_err (l : List (CState K L)) (i : K) (h : ∀ x ∈ l, x.id ≠ i) :
    getIndexById l i = .error .valueError := by
  unfold getIndexById
  have : l.findIdx? (fun x => decide (x.id = i)) = none := by
    rw [List.findIdx?_eq_none_iff]
    intro x hx; simpa using h x hx
  rw [this]

theorem first_exists (l : List (CState K L)) (i : K) (h : ∃ x ∈ l, x.id = i) :
    ∃ k, FirstWithId l i k := by
  obtain ⟨x, hx, hi⟩ := h
  cases hg : getIndexById l i with
  | ok k => exact ⟨k, (getIndex_ok_iff l i k).1 hg⟩
  | error e =>
    exfalso
    unfold getIndexById at hg
    split at hg
    · cases hg
    · rename_i hn
      rw [List.findIdx?_eq_none_iff] at hn
      have := hn x hx
      simp [hi] at this

theorem getSlice_ok (o : LeafOps L) (l : List (CState K L)) (i : K) (k : ℕ) (h : FirstWithId l i k) :
    getSliceById o l i = .ok ⟨off o l k, off o l k + (l[k]'h.1).dof o⟩ := by
  unfold getSliceById
  rw [(getIndex_ok_iff l i k).2 h]
  simp only [bind, Except.bind]
  unfold pyGet getSlices
  rw [slicesFrom_get o l 0 k h.1]
  simp

theorem getState_ok (l : List (CState K L)) (i : K) (k : ℕ) (h : FirstWithId l i k) :
    getStateById l i = .ok (l[k]'h.1) := by
  unfold getStateById
  rw [(getIndex_ok_iff l i k).2 h]
  simp only [bind, Except.bind]
  exact pyGet_ok h.1

theorem FirstWithId.unique {l : List (CState K L)} {i : K} {k k' : ℕ} (h : FirstWithId l i k)
    (h' : FirstWithId l i k') : k = k' := by
  have := (getIndex_ok_iff l i k).2 h
  rw [(getIndex_ok_iff l i k').2 h'] at this
  cases this; rfl

theorem slice_len {a b n : ℕ} (h : b ≤ n) (hab : a ≤ b) : (⟨a, b⟩ : Slice).len n = b - a := by
  unfold Slice.len; simp only; omega

/-- assigning a block of exactly the right shape -/
theorem setBlock_exact (A B : DMat) (a b c d : ℕ) (h1 : a + b ≤ A.rows) (h2 : c + d ≤ A.cols)
    (hr : B.rows = b) (hc : B.cols = d) :
    ∃ A', A.setBlock ⟨a, a + b⟩ ⟨c, c + d⟩ B = .ok A' ∧ A'.rows = A.rows ∧ A'.cols = A.cols ∧
      (∀ i j, i < b → j < d → A'.get (a + i) (c + j) = B.get i j) ∧
      (∀ i j, ¬ (a ≤ i ∧ i < a + b ∧ c ≤ j ∧ j < c + d) → A'.get i j = A.get i j) := by
  unfold DMat.setBlock
  have e1 : (⟨a, a + b⟩ : Slice).len A.rows = b := by rw [slice_len h1 (by omega)]; omega
  have e2 : (⟨c, c + d⟩ : Slice).len A.cols = d := by rw [slice_len h2 (by omega)]; omega
  rw [if_pos ⟨.inl (by rw [e1, hr]), .inl (by rw [e2, hc])⟩]
  refine ⟨_, rfl, rfl, rfl, ?_, ?_⟩
  · intro i j hi hj
    simp only
    rw [if_pos ⟨by omega, by omega, by omega, by omega⟩]
    congr 1
    · split
      · omega
      · omega
    · split
      · omega
      · omega
  · intro i j h
    simp only
    rw [if_neg h]

end Verif
