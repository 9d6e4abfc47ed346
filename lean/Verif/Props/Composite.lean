import Verif.Lemmas.Composite

/-!
Property theorems about `navlie/composite.py` (C24 - C31).
-/

namespace Verif

set_option linter.unusedVariables false
set_option linter.unusedSectionVars false

open CState

variable {K L U : Type} [DecidableEq K]

/-! ### C24 -/

/-- **C24.** `get_slices`: one slice per sub-state, in order, of the sub-state's size, starting where the previous
ends, the first at 0 and the last ending at `dof`. -/
theorem C24_slices_consecutive (o : LeafOps L) (l : List (CState K L)) (i0 : K) (st0 : Option ℝ) :
    (getSlices o l).length = l.length ∧
    (∀ k (hk : k < l.length) (s : Slice), (getSlices o l)[k]? = some s → s.stop = s.start + (l[k]).dof o) ∧
    (∀ k (s s' : Slice), (getSlices o l)[k]? = some s → (getSlices o l)[k + 1]? = some s' →
      s'.start = s.stop) ∧
    (∀ s : Slice, (getSlices o l)[0]? = some s → s.start = 0) ∧
    (∀ s : Slice, (getSlices o l).getLast? = some s → s.stop = (CState.comp i0 st0 l).dof o) := by
  have hl : (getSlices o l).length = l.length := slicesFrom_length o l 0
  have hg : ∀ k (hk : k < l.length), (getSlices o l)[k]? = some ⟨off o l k, off o l k + (l[k]).dof o⟩ := by
    intro k hk
    have := slicesFrom_get o l 0 k hk
    simpa [getSlices] using this
  refine ⟨hl, ?_, ?_, ?_, ?_⟩
  · intro k hk s hs
    rw [hg k hk] at hs; cases hs; rfl
  · intro k s s' hs hs'
    have hk : k + 1 < l.length := by
      rw [← hl]; exact (List.getElem?_eq_some_iff.1 hs').1
    rw [hg k (by omega)] at hs
    rw [hg (k + 1) hk] at hs'
    cases hs; cases hs'
    exact off_succ o l k (by omega)
  · intro s hs
    have hk : 0 < l.length := by
      rw [← hl]; exact (List.getElem?_eq_some_iff.1 hs).1
    rw [hg 0 hk] at hs; cases hs; exact off_zero o l
  · intro s hs
    rw [List.getLast?_eq_getElem?, hl] at hs
    have hk : l.length - 1 < l.length := by
      rw [← hl]; exact (List.getElem?_eq_some_iff.1 (by rw [← hl] at hs; exact hs)).1
    rw [hg _ hk] at hs; cases hs
    show off o l (l.length - 1) + _ = dofList o l
    rw [← off_succ o l _ hk, show l.length - 1 + 1 = l.length by omega, off_length]

/-- **C24.** The slices partition the coordinates: every coordinate below `dof` is in exactly one of them. -/
theorem C24_slices_partition (o : LeafOps L) (l : List (CState K L)) (i0 : K) (st0 : Option ℝ) (a : ℕ)
    (h : a < (CState.comp i0 st0 l).dof o) :
    ∃! k : ℕ, ∃ s : Slice, (getSlices o l)[k]? = some s ∧ s.start ≤ a ∧ a < s.stop := by
  have hg : ∀ k (hk : k < l.length), (getSlices o l)[k]? = some ⟨off o l k, off o l k + (l[k]).dof o⟩ := by
    intro k hk
    have := slicesFrom_get o l 0 k hk
    simpa [getSlices] using this
  obtain ⟨k, hk, h1, h2⟩ := off_cover o l a h
  refine ⟨k, ⟨_, hg k hk, h1, h2⟩, ?_⟩
  rintro j ⟨s, hs, h3, h4⟩
  have hj : j < l.length := by
    have := (List.getElem?_eq_some_iff.1 hs).1
    rwa [getSlices, slicesFrom_length] at this
  rw [hg j hj] at hs; cases hs
  exact off_disjoint o l hj hk h3 h4 h1 h2

/-- **C24.** `get_slice_by_id` returns the slice at the position of the first sub-state with that id. -/
theorem C24_slice_by_id (o : LeafOps L) (l : List (CState K L)) (i : K) (s : Slice) :
    getSliceById o l i = .ok s ↔ ∃ k, FirstWithId l i k ∧ (getSlices o l)[k]? = some s := by
  constructor
  · intro h
    unfold getSliceById at h
    obtain ⟨k, h1, h2⟩ := bind_ok h
    refine ⟨k, (getIndex_ok_iff l i k).1 h1, ?_⟩
    unfold pyGet at h2
    split at h2
    · rename_i a ha; cases h2; exact ha
    · cases h2
  · rintro ⟨k, hk, hs⟩
    unfold getSliceById
    rw [(getIndex_ok_iff l i k).2 hk]
    simp only [bind, Except.bind]
    unfold pyGet
    rw [hs]

/-- **C24.** An unknown id is a `ValueError`. -/
theorem C24_unknown_id (o : LeafOps L) (l : List (CState K L)) (i : K) (h : ∀ x ∈ l, x.id ≠ i) :
    getSliceById o l i = .error .valueError := by
  unfold getSliceById
  rw [getIndex_err l i h]; rfl

/-! ### C25 -/

/-- The laws of an elementary state class: `plus` then `minus` gives back the perturbation on the domain `good`,
`minus` then `plus` gives back the value on the domain `near`. -/
structure LeafLaws (o : LeafOps L) (good : L → List ℝ → Prop) (near : L → L → Prop) : Prop where
  plus_minus : ∀ v dx, dx.length = o.dof v → good v dx →
    ∃ v', o.plus v dx = .ok v' ∧ o.dof v' = o.dof v ∧ o.minus v' v = .ok dx
  minus_plus : ∀ v w, near v w → ∃ d, o.minus w v = .ok d ∧ d.length = o.dof w ∧ o.dof w = o.dof v ∧
    o.plus v d = .ok w

mutual
/-- `dx` has the size of the state and every elementary part of it is in the domain of its class; no
(nested) composite is empty. -/
def CGood (o : LeafOps L) (good : L → List ℝ → Prop) : CState K L → List ℝ → Prop
  | .leaf _ _ v, dx => dx.length = o.dof v ∧ good v dx
  | .comp _ _ l, dx => l ≠ [] ∧ CGoodList o good l dx
/-- blockwise -/
def CGoodList (o : LeafOps L) (good : L → List ℝ → Prop) : List (CState K L) → List ℝ → Prop
  | [], dx => dx = []
  | x :: l, dx => CGood o good x (dx.take (x.dof o)) ∧ CGoodList o good l (dx.drop (x.dof o))
end

mutual
/-- same nesting, elementary values pairwise in the domain `near`, no empty composite -/
def CNear (near : L → L → Prop) : CState K L → CState K L → Prop
  | .leaf _ _ v, .leaf _ _ w => near v w
  | .comp _ _ l, .comp _ _ l' => l ≠ [] ∧ CNearList near l l'
  | .leaf _ _ _, .comp _ _ _ => False
  | .comp _ _ _, .leaf _ _ _ => False
/-- elementwise -/
def CNearList (near : L → L → Prop) : List (CState K L) → List (CState K L) → Prop
  | [], [] => True
  | x :: l, y :: l' => CNear near x y ∧ CNearList near l l'
  | [], _ :: _ => False
  | _ :: _, [] => False
end

mutual
/-- the values of the second state with the ids and stamps of the first -/
def withLabels : CState K L → CState K L → CState K L
  | .leaf i s _, .leaf _ _ w => .leaf i s w
  | .comp i s l, .comp _ _ l' => .comp i s (withLabelsList l l')
  | .leaf _ _ _, y@(.comp _ _ _) => y
  | .comp _ _ _, y@(.leaf _ _ _) => y
/-- elementwise -/
def withLabelsList : List (CState K L) → List (CState K L) → List (CState K L)
  | x :: l, y :: l' => withLabels x y :: withLabelsList l l'
  | _, _ => []
end

/-- same nesting, ids and stamps -/
def SameLabels (x y : CState K L) : Prop := withLabels x y = y

mutual
theorem goodSize (o : LeafOps L) (good : L → List ℝ → Prop) :
    ∀ (x : CState K L) (dx : List ℝ), CGood o good x dx → dx.length = x.dof o
  | .leaf _ _ v, dx, h => by rw [CGood] at h; rw [dof]; exact h.1
  | .comp _ _ l, dx, h => by rw [CGood] at h; rw [dof]; exact goodSizeList o good l dx h.2
theorem goodSizeList (o : LeafOps L) (good : L → List ℝ → Prop) :
    ∀ (l : List (CState K L)) (dx : List ℝ), CGoodList o good l dx → dx.length = dofList o l
  | [], dx, h => by rw [CGoodList] at h; subst h; rfl
  | x :: l, dx, h => by
    rw [CGoodList] at h
    have h1 := goodSize o good x _ h.1
    have h2 := goodSizeList o good l _ h.2
    rw [dofList]
    simp at h1 h2
    omega
end

mutual
theorem plus_minus_aux (o : LeafOps L) (good : L → List ℝ → Prop) (near : L → L → Prop)
    (hl : LeafLaws o good near) : ∀ (x : CState K L) (dx : List ℝ), CGood o good x dx →
    ∃ x', x.plus o dx = .ok x' ∧ x'.dof o = x.dof o ∧ x'.minus o x = .ok dx ∧ SameLabels x x'
  | .leaf i s v, dx, h => by
    rw [CGood] at h
    obtain ⟨v', h1, h2, h3⟩ := hl.plus_minus v dx h.1 h.2
    refine ⟨.leaf i s v', ?_, ?_, ?_, ?_⟩
    · rw [CState.plus, h1]; rfl
    · rw [dof, dof, h2]
    · rw [CState.minus]; exact h3
    · unfold SameLabels; rw [withLabels]
  | .comp i s l, dx, h => by
    rw [CGood] at h
    obtain ⟨l', h1, h2, h3, h4, h5⟩ := plus_minus_list o good near hl l dx h.2
    refine ⟨.comp i s l', ?_, ?_, ?_, ?_⟩
    · rw [CState.plus, h1]; rfl
    · rw [dof, dof, h2]
    · rw [CState.minus, h3]
      show (if l.isEmpty = true then _ else _) = _
      rw [if_neg (by simpa using h.1)]
    · unfold SameLabels; rw [withLabels, h4]
theorem plus_minus_list (o : LeafOps L) (good : L → List ℝ → Prop) (near : L → L → Prop)
    (hl : LeafLaws o good near) : ∀ (l : List (CState K L)) (dx : List ℝ), CGoodList o good l dx →
    ∃ l', plusList o l dx = .ok l' ∧ dofList o l' = dofList o l ∧ minusList o l' l = .ok dx ∧
      withLabelsList l l' = l' ∧ l'.length = l.length
  | [], dx, h => by
    rw [CGoodList] at h; subst h
    exact ⟨[], rfl, rfl, by rw [minusList], by rw [withLabelsList]; simp, rfl⟩
  | x :: l, dx, h => by
    rw [CGoodList] at h
    obtain ⟨x', a1, a2, a3, a4⟩ := plus_minus_aux o good near hl x _ h.1
    obtain ⟨l', b1, b2, b3, b4, b5⟩ := plus_minus_list o good near hl l _ h.2
    refine ⟨x' :: l', ?_, ?_, ?_, ?_, by simp [b5]⟩
    · rw [plusList, a1]
      simp only [bind, Except.bind, pure, Except.pure]
      rw [b1]
    · rw [dofList, dofList, a2, b2]
    · rw [minusList, a3]
      simp only [bind, Except.bind, pure, Except.pure]
      rw [goodSize o good x _ h.1, a2, if_pos rfl, b3]
      simp only [List.take_append_drop]
    · unfold SameLabels at a4
      rw [withLabelsList, a4, b4]
end

/-- **C25.** `(x.plus(dx)).minus(x) = dx` for composites of any nesting depth, keeping ids and stamps, if it holds for
the elementary sub-states. -/
theorem C25_plus_minus (o : LeafOps L) (good : L → List ℝ → Prop) (near : L → L → Prop)
    (hl : LeafLaws o good near) (x : CState K L) (dx : List ℝ) (h : CGood o good x dx) :
    ∃ x', x.plus o dx = .ok x' ∧ x'.minus o x = .ok dx ∧ SameLabels x x' := by
  obtain ⟨x', h1, _, h3, h4⟩ := plus_minus_aux o good near hl x dx h
  exact ⟨x', h1, h3, h4⟩

mutual
theorem minus_plus_aux (o : LeafOps L) (good : L → List ℝ → Prop) (near : L → L → Prop)
    (hl : LeafLaws o good near) : ∀ (x y : CState K L), CNear near x y →
    ∃ d, y.minus o x = .ok d ∧ d.length = y.dof o ∧ y.dof o = x.dof o ∧ x.plus o d = .ok (withLabels x y)
  | .leaf i s v, .leaf i' s' w, h => by
    rw [CNear] at h
    obtain ⟨d, h1, h2, h3, h4⟩ := hl.minus_plus v w h
    refine ⟨d, ?_, ?_, ?_, ?_⟩
    · rw [CState.minus]; exact h1
    · rw [dof]; exact h2
    · rw [dof, dof]; exact h3
    · rw [CState.plus, h4, withLabels]; rfl
  | .comp i s l, .comp i' s' l', h => by
    rw [CNear] at h
    obtain ⟨d, h1, h2, h3, h4⟩ := minus_plus_list o good near hl l l' h.2
    refine ⟨d, ?_, ?_, ?_, ?_⟩
    · rw [CState.minus, h1]
      show (if l.isEmpty = true then _ else _) = _
      rw [if_neg (by simpa using h.1)]
    · rw [dof]; exact h2
    · rw [dof, dof]; exact h3
    · rw [CState.plus, h4, withLabels]; rfl
  | .leaf _ _ _, .comp _ _ _, h => by rw [CNear] at h; exact h.elim
  | .comp _ _ _, .leaf _ _ _, h => by rw [CNear] at h; exact h.elim
theorem minus_plus_list (o : LeafOps L) (good : L → List ℝ → Prop) (near : L → L → Prop)
    (hl : LeafLaws o good near) : ∀ (l l' : List (CState K L)), CNearList near l l' →
    ∃ d, minusList o l' l = .ok d ∧ d.length = dofList o l' ∧ dofList o l' = dofList o l ∧
      plusList o l d = .ok (withLabelsList l l')
  | [], [], h => ⟨[], by rw [minusList], by rw [dofList]; rfl, rfl, by rw [plusList, withLabelsList]; simp⟩
  | x :: l, y :: l', h => by
    rw [CNearList] at h
    obtain ⟨d, a1, a2, a3, a4⟩ := minus_plus_aux o good near hl x y h.1
    obtain ⟨ds, b1, b2, b3, b4⟩ := minus_plus_list o good near hl l l' h.2
    refine ⟨d ++ ds, ?_, ?_, ?_, ?_⟩
    · rw [minusList, a1]
      simp only [bind, Except.bind, pure, Except.pure]
      rw [if_pos a2, b1]
    · rw [dofList, List.length_append, a2, b2]
    · rw [dofList, dofList, a3, b3]
    · have e1 : (d ++ ds).take (x.dof o) = d := by
        rw [← a3, ← a2]; simp
      have e2 : (d ++ ds).drop (x.dof o) = ds := by
        rw [← a3, ← a2]; simp
      rw [plusList, e1, e2, a4]
      simp only [bind, Except.bind, pure, Except.pure]
      rw [b4, withLabelsList]
  | [], _ :: _, h => by rw [CNearList] at h; exact h.elim
  | _ :: _, [], h => by rw [CNearList] at h; exact h.elim
end

/-- **C25.** `x.plus(y.minus(x))` has the value of `y` (and the ids and stamps of `x`), at any nesting depth. -/
theorem C25_minus_plus (o : LeafOps L) (good : L → List ℝ → Prop) (near : L → L → Prop)
    (hl : LeafLaws o good near) (x y : CState K L) (h : CNear near x y) :
    ∃ d, y.minus o x = .ok d ∧ d.length = x.dof o ∧ x.plus o d = .ok (withLabels x y) := by
  obtain ⟨d, h1, h2, h3, h4⟩ := minus_plus_aux o good near hl x y h
  exact ⟨d, h1, h2.trans h3, h4⟩

/-- **C25.** `plus` hands the `k`-th sub-state exactly its slice of `dx` and replaces exactly it. -/
theorem C25_plus_blockwise (o : LeafOps L) (l l' : List (CState K L)) (dx : List ℝ)
    (h : plusList o l dx = .ok l') :
    l'.length = l.length ∧ ∀ k (hk : k < l.length) (hk' : k < l'.length),
      (l[k]).plus o ((dx.drop (off o l k)).take ((l[k]).dof o)) = .ok l'[k] := by
  induction l generalizing dx l' with
  | nil => rw [plusList] at h; cases h; simp
  | cons x l ih =>
    rw [plusList] at h
    obtain ⟨x', h1, h2⟩ := bind_ok h
    obtain ⟨l'', h3, h4⟩ := bind_ok h2
    cases h4
    obtain ⟨i1, i2⟩ := ih _ _ h3
    refine ⟨by simp [i1], ?_⟩
    intro k hk hk'
    cases k with
    | zero => simpa [off_zero] using h1
    | succ k =>
      have := i2 k (by simpa using hk) (by simpa using hk')
      rw [off_cons]
      simpa [List.drop_drop, Nat.add_comm] using this

/-- **C25** (finding). Components of `dx` beyond `dof` are silently ignored. -/
theorem C25_extra_ignored (o : LeafOps L) (l : List (CState K L)) (dx extra : List ℝ)
    (h : dx.length = dofList o l) : plusList o l (dx ++ extra) = plusList o l dx := by
  induction l generalizing dx with
  | nil => rw [plusList, plusList]
  | cons x l ih =>
    rw [dofList] at h
    rw [plusList, plusList, List.take_append_of_le_length (by omega), List.drop_append_of_le_length (by omega),
      ih (dx.drop (x.dof o)) (by simp; omega)]

/-- `new_stamp` is written to the direct sub-states only; the composite's own stamp is unchanged. -/
theorem C25_new_stamp (o : LeafOps L) (i : K) (s : Option ℝ) (l : List (CState K L)) (dx : List ℝ) (t : ℝ)
    (x' : CState K L) (h : plusStamped o (.comp i s l) dx (some t) = .ok x') :
    x'.stamp = s ∧ x'.id = i ∧ ∃ l', x' = .comp i s l' ∧ ∀ y ∈ l', y.stamp = some t := by
  unfold plusStamped at h
  obtain ⟨x1, h1, h2⟩ := bind_ok h
  rw [CState.plus] at h1
  obtain ⟨l1, h3, h4⟩ := bind_ok h1
  cases h4
  simp only at h2
  cases h2
  refine ⟨rfl, rfl, _, rfl, ?_⟩
  intro y hy
  unfold setStampForAll at hy
  obtain ⟨z, _, rfl⟩ := List.mem_map.1 hy
  cases z <;> rfl


/-! ### An elementary state class, for non-vacuity: `VectorState` -/

/-- `navlie/lib/states.py:21-55` (`VectorState`): `plus` raises `ValueError` on a size mismatch. Simplification:
`minus` of different sizes is a `ValueError` (numpy would broadcast size 1). -/
noncomputable def vectorLeaf : LeafOps (List ℝ) where
  dof v := v.length
  plus v dx := if dx.length = v.length then .ok (List.zipWith (· + ·) v dx) else .error .valueError
  minus v w := if v.length = w.length then .ok (List.zipWith (· - ·) v w) else .error .valueError
  plusJac v _ := .ok ⟨v.length, v.length, fun i j => if i = j then 1 else 0⟩
  minusJac v _ := .ok ⟨v.length, v.length, fun i j => if i = j then 1 else 0⟩

theorem zip_add_sub : ∀ (v dx : List ℝ), dx.length = v.length →
    List.zipWith (· - ·) (List.zipWith (· + ·) v dx) v = dx
  | [], [], _ => rfl
  | [], _ :: _, h => by simp at h
  | _ :: _, [], h => by simp at h
  | a :: v, b :: dx, h => by
    simp only [List.zipWith_cons_cons]
    rw [zip_add_sub v dx (by simpa using h)]
    simp

theorem zip_sub_add : ∀ (v w : List ℝ), w.length = v.length →
    List.zipWith (· + ·) v (List.zipWith (· - ·) w v) = w
  | [], [], _ => rfl
  | [], _ :: _, h => by simp at h
  | _ :: _, [], h => by simp at h
  | a :: v, b :: dx, h => by
    simp only [List.zipWith_cons_cons]
    rw [zip_sub_add v dx (by simpa using h)]
    simp

/-- `VectorState` satisfies the laws on its whole domain. -/
theorem vectorLeaf_laws : LeafLaws vectorLeaf (fun _ _ => True) (fun v w => w.length = v.length) where
  plus_minus v dx h _ := by
    have h' : dx.length = v.length := h
    refine ⟨List.zipWith (· + ·) v dx, ?_, ?_, ?_⟩
    · simp [vectorLeaf, h']
    · simp [vectorLeaf, h']
    · have : (List.zipWith (· + ·) v dx).length = v.length := by simp [h']
      simp only [vectorLeaf]
      rw [if_pos this, zip_add_sub v dx h']
  minus_plus v w h := by
    refine ⟨List.zipWith (· - ·) w v, ?_, ?_, h, ?_⟩
    · simp only [vectorLeaf]; rw [if_pos h]
    · simp [vectorLeaf, h]
    · simp only [vectorLeaf]
      rw [if_pos (by simp [h]), zip_sub_add v w h]

/-- a nested composite state: a 2-vector, and a composite of a scalar and a 2-vector -/
def nested : CState ℕ (List ℝ) :=
  .comp 9 none [.leaf 0 (some 1) [1, 2], .comp 1 none [.leaf 5 none [3], .leaf 6 none [4, 5]]]

/-- Non-vacuity of C25. -/
example : CGood vectorLeaf (fun _ _ => True) nested [10, 20, 30, 40, 50] ∧
    CNear (fun v w => w.length = v.length) nested nested ∧ nested.dof vectorLeaf = 5 := by
  refine ⟨?_, ?_, ?_⟩
  · simp [nested, CGood, CGoodList, dof, dofList, vectorLeaf]
  · simp [nested, CNear, CNearList]
  · simp [nested, dof, dofList, vectorLeaf]

/-! ### C26 -/

/-- **C26.** By-id reads return the first sub-state with that id, unknown ids raise `ValueError`. -/
theorem C26_get (l : List (CState K L)) (i : K) (x : CState K L) :
    (getStateById l i = .ok x ↔ ∃ k, ∃ h : FirstWithId l i k, x = l[k]'h.1) ∧
    ((∀ y ∈ l, y.id ≠ i) → getStateById l i = .error .valueError) := by
  constructor
  · constructor
    · intro h
      unfold getStateById at h
      obtain ⟨k, h1, h2⟩ := bind_ok h
      have hf := (getIndex_ok_iff l i k).1 h1
      refine ⟨k, hf, ?_⟩
      rw [pyGet_ok hf.1] at h2
      cases h2; rfl
    · rintro ⟨k, h, rfl⟩
      exact getState_ok l i k h
  · intro h
    unfold getStateById
    rw [getIndex_err l i h]; rfl

/-- **C26.** `set_state_by_id`: the addressed entry becomes the given state, every other entry is untouched; if the new
state carries the id, reading it back returns it. -/
theorem C26_set_state (l : List (CState K L)) (i : K) (k : ℕ) (hk : FirstWithId l i k) (x : CState K L) :
    ∃ l', setStateById l x i = .ok l' ∧ l'.length = l.length ∧ l'[k]? = some x ∧
      (∀ j, j ≠ k → l'[j]? = l[j]?) ∧ (x.id = i → getStateById l' i = .ok x) := by
  have hs : setStateById l x i = .ok (l.set k x) := by
    unfold setStateById; rw [(getIndex_ok_iff l i k).2 hk]; rfl
  refine ⟨_, hs, by simp, ?_, ?_, ?_⟩
  · rw [List.getElem?_set_self hk.1]
  · intro j hj; rw [List.getElem?_set_ne (Ne.symm hj)]
  · intro hx
    have hf : FirstWithId (l.set k x) i k := by
      refine ⟨by simpa using hk.1, by simpa using hx, ?_⟩
      intro j hj
      rw [List.getElem_set_ne (by omega)]
      exact hk.2.2 j hj
    rw [getState_ok _ _ _ hf]
    simp

/-- **C26.** `set_stamp_by_id`: changes only the stamp of the addressed sub-state. -/
theorem C26_set_stamp (l : List (CState K L)) (i : K) (k : ℕ) (hk : FirstWithId l i k) (s : Option ℝ) :
    ∃ l', setStampById l s i = .ok l' ∧ l'.length = l.length ∧
      l'[k]? = some ((l[k]'hk.1).setStamp s) ∧ (∀ j, j ≠ k → l'[j]? = l[j]?) ∧
      ∃ x, getStateById l' i = .ok x ∧ x.stamp = s ∧ x.id = i := by
  have hs : setStampById l s i = .ok (l.modify k (CState.setStamp s)) := by
    unfold setStampById; rw [(getIndex_ok_iff l i k).2 hk]; rfl
  have hid : ∀ x : CState K L, (x.setStamp s).id = x.id := by intro x; cases x <;> rfl
  have hst : ∀ x : CState K L, (x.setStamp s).stamp = s := by intro x; cases x <;> rfl
  have hf : FirstWithId (l.modify k (CState.setStamp s)) i k := by
    refine ⟨by simpa using hk.1, ?_, ?_⟩
    · rw [List.getElem_modify]; simp [hid]; exact hk.2.1
    · intro j hj
      rw [List.getElem_modify, if_neg (by omega)]
      exact hk.2.2 j hj
  refine ⟨_, hs, by simp, ?_, ?_, ?_⟩
  · rw [List.getElem?_modify, List.getElem?_eq_getElem hk.1]; simp
  · intro j hj; rw [List.getElem?_modify]; simp [Ne.symm hj]
  · refine ⟨_, getState_ok _ _ _ hf, ?_, hf.2.1⟩
    rw [List.getElem_modify, if_pos rfl, hst]

/-- **C26.** `set_value_by_id` on an elementary sub-state: changes only its value. -/
theorem C26_set_value (l : List (CState K L)) (i : K) (k : ℕ) (hk : FirstWithId l i k) (v v0 : L)
    (s0 : Option ℝ) (hleaf : l[k]'hk.1 = .leaf i s0 v0) :
    ∃ l', setValueById l v i = .ok l' ∧ l'.length = l.length ∧
      (∀ j, j ≠ k → l'[j]? = l[j]?) ∧ getStateById l' i = .ok (.leaf i s0 v) := by
  have hs : setValueById l v i = .ok (l.modify k (CState.setLeafValue v)) := by
    unfold setValueById; rw [(getIndex_ok_iff l i k).2 hk]; rfl
  have hid : ∀ x : CState K L, (x.setLeafValue v).id = x.id := by intro x; cases x <;> rfl
  have hf : FirstWithId (l.modify k (CState.setLeafValue v)) i k := by
    refine ⟨by simpa using hk.1, ?_, ?_⟩
    · rw [List.getElem_modify]; simp [hid]; exact hk.2.1
    · intro j hj
      rw [List.getElem_modify, if_neg (by omega)]
      exact hk.2.2 j hj
  refine ⟨_, hs, by simp, ?_, ?_⟩
  · intro j hj; rw [List.getElem?_modify]; simp [Ne.symm hj]
  · rw [getState_ok _ _ _ hf, List.getElem_modify, if_pos rfl, hleaf]; rfl

/-- **C26.** `remove_state_by_id` removes exactly the first sub-state with that id and keeps the order of the others;
a second sub-state with the same id remains. -/
theorem C26_remove (l : List (CState K L)) (i : K) (k : ℕ) (hk : FirstWithId l i k) :
    removeById l i = .ok (l.take k ++ l.drop (k + 1)) := by
  unfold removeById
  rw [(getIndex_ok_iff l i k).2 hk]
  simp only [bind, Except.bind, pure, Except.pure]
  rw [List.eraseIdx_eq_take_drop_succ]

/-- **C26.** With distinct ids, after a removal the id is unknown. -/
theorem C26_removed_unknown (l : List (CState K L)) (i : K) (k : ℕ) (hk : FirstWithId l i k)
    (hn : (l.map CState.id).Nodup) : getIndexById (l.take k ++ l.drop (k + 1)) i = .error .valueError := by
  apply getIndex_err
  intro x hx hxi
  have e : l = l.take k ++ l[k]'hk.1 :: l.drop (k + 1) := by
    rw [← List.drop_eq_getElem_cons hk.1, List.take_append_drop]
  rw [e, List.map_append, List.map_cons] at hn
  have h1 := List.nodup_middle.1 hn
  rw [List.nodup_cons] at h1
  apply h1.1
  rw [← List.map_append, hk.2.1]
  exact List.mem_map.2 ⟨x, hx, hxi⟩

/-- **C26.** For unknown ids every by-id operation raises `ValueError` (and so changes nothing). -/
theorem C26_unknown (o : LeafOps L) (l : List (CState K L)) (i : K) (h : ∀ y ∈ l, y.id ≠ i)
    (x : CState K L) (s : Option ℝ) (v : L) (dx : List ℝ) :
    setStateById l x i = .error .valueError ∧ setStampById l s i = .error .valueError ∧
    setValueById l v i = .error .valueError ∧ removeById l i = .error .valueError ∧
    plusById o l dx i s = .error .valueError := by
  unfold setStateById setStampById setValueById removeById plusById
  rw [getIndex_err l i h]
  exact ⟨rfl, rfl, rfl, rfl, rfl⟩

/-- **C26.** `add_state` appends: reading an id that was unknown before finds the new state, other ids are found as
before. -/
theorem C26_add (l : List (CState K L)) (x : CState K L) (i : K) :
    ((∀ y ∈ l, y.id ≠ i) → x.id = i → getStateById (addState l x) i = .ok x) ∧
    ((∃ y ∈ l, y.id = i) → getStateById (addState l x) i = getStateById l i) := by
  constructor
  · intro h hx
    have hf : FirstWithId (addState l x) i l.length := by
      refine ⟨by simp [addState], by simp [addState, hx], ?_⟩
      intro j hj
      have : (addState l x)[j]'(by simp [addState]; omega) = l[j] := by
        simp [addState, List.getElem_append_left hj]
      rw [this]
      exact h _ (List.getElem_mem _)
    rw [getState_ok _ _ _ hf]
    simp [addState]
  · intro h
    obtain ⟨k, hk⟩ := first_exists l i h
    have hf : FirstWithId (addState l x) i k := by
      refine ⟨by simp [addState]; have := hk.1; omega, ?_, ?_⟩
      · simp only [addState]; rw [List.getElem_append_left hk.1]; exact hk.2.1
      · intro j hj
        simp only [addState]; rw [List.getElem_append_left (hj.trans hk.1)]; exact hk.2.2 j hj
    rw [getState_ok _ _ _ hf, getState_ok _ _ _ hk]
    congr 1
    simp only [addState]; rw [List.getElem_append_left hk.1]

/-- Non-vacuity: position 1 is the first sub-state with id 7 although another one follows. -/
example : FirstWithId ([.leaf 3 none [1], .leaf 7 none [2, 3], .leaf 7 none []] : List (CState ℕ (List ℝ))) 7 1 := by
  refine ⟨by simp, rfl, ?_⟩
  intro j hj
  have : j = 0 := by omega
  subst this
  simp [CState.id]

/-! ### C27 -/

/-- The claim: the addressed sub-state of the result is the old one perturbed by `dx`. -/
def PlusByIdPerturbs (o : LeafOps L) (l : List (CState K L)) (dx : List ℝ) (i : K) : Prop :=
  ∀ x y l', getStateById l i = .ok x → x.plus o dx = .ok y → plusById o l dx i none = .ok l' →
    getStateById l' i = .ok y

/-- **C27, refuted in general.** `plus_by_id` never changes anything but (optionally) the stamp: without `new_stamp`
it returns an equal copy, whatever `dx`. -/
theorem C27_plus_by_id_noop (o : LeafOps L) (l l' : List (CState K L)) (dx : List ℝ) (i : K)
    (h : plusById o l dx i none = .ok l') : l' = l := by
  unfold plusById at h
  obtain ⟨k, _, h⟩ := bind_ok h
  obtain ⟨x, _, h⟩ := bind_ok h
  obtain ⟨_, _, h⟩ := bind_ok h
  cases h; rfl

/-- **C27, refuted.** So the claim holds only for perturbations that do nothing. -/
theorem C27_only_trivial (o : LeafOps L) (l : List (CState K L)) (dx : List ℝ) (i : K) (x y : CState K L)
    (hx : getStateById l i = .ok x) (hy : x.plus o dx = .ok y) :
    PlusByIdPerturbs o l dx i ↔ y = x := by
  have hg : plusById o l dx i none = .ok l := by
    unfold plusById
    unfold getStateById at hx
    obtain ⟨k, h1, h2⟩ := bind_ok hx
    rw [h1]
    simp only [bind, Except.bind]
    rw [h2]
    simp only
    rw [hy]
  constructor
  · intro h
    have := h x y l hx hy hg
    rw [hx] at this; cases this; rfl
  · rintro rfl x' y' l' h1 h2 h3
    rw [hx] at h1; cases h1
    rw [hy] at h2; cases h2
    rw [hg] at h3; cases h3
    exact hx

/-- Witness: perturbing a scalar sub-state `1` by `5`. -/
theorem C27_witness : ¬ PlusByIdPerturbs vectorLeaf
    ([.leaf 0 none [1]] : List (CState ℕ (List ℝ))) [5] 0 := by
  intro h
  have hx : getStateById ([.leaf 0 none [1]] : List (CState ℕ (List ℝ))) 0 = .ok (.leaf 0 none [1]) := by
    rw [getState_ok _ 0 0 ⟨by simp, rfl, by simp⟩]; rfl
  have hy : (CState.leaf 0 none [1] : CState ℕ (List ℝ)).plus vectorLeaf [5] = .ok (.leaf 0 none [1 + 5]) := by
    rw [CState.plus]; rfl
  have := (C27_only_trivial vectorLeaf _ _ _ _ _ hx hy).1 h
  simp at this

/-! ### C28 -/

/-- **C28.** Read-over-write for a block of the right size: the written block is read back; all entries outside its
slices, in particular every block of a different pair of sub-states, are unchanged; the shape too. -/
theorem C28_read_over_write (o : LeafOps L) (l : List (CState K L)) (A B : DMat) (i : K) (j : Option K)
    (p q : ℕ) (hp : FirstWithId l i p) (hq : FirstWithId l (j.getD i) q)
    (hA : A.rows = dofList o l ∧ A.cols = dofList o l)
    (hB : B.rows = (l[p]'hp.1).dof o ∧ B.cols = (l[q]'hq.1).dof o) :
    ∃ A' B', setMatrixBlock o l B A i j = .ok A' ∧ A'.rows = A.rows ∧ A'.cols = A.cols ∧
      getMatrixBlock o l A' i j = .ok B' ∧ B'.Same B ∧
      ∀ (i2 j2 : K) (p2 q2 : ℕ), FirstWithId l i2 p2 → FirstWithId l j2 q2 → (p2 ≠ p ∨ q2 ≠ q) →
        ∃ C C', getMatrixBlock o l A i2 (some j2) = .ok C ∧ getMatrixBlock o l A' i2 (some j2) = .ok C' ∧
          C'.Same C := by
  have s1 := getSlice_ok o l i p hp
  have s2 := getSlice_ok o l (j.getD i) q hq
  have b1 := off_end_le o l p hp.1
  have b2 := off_end_le o l q hq.1
  obtain ⟨A', h1, h2, h3, h4, h5⟩ := setBlock_exact A B (off o l p) ((l[p]'hp.1).dof o) (off o l q)
    ((l[q]'hq.1).dof o) (by omega) (by omega) hB.1 hB.2
  have hset : setMatrixBlock o l B A i j = .ok A' := by
    unfold setMatrixBlock
    rw [s1]; simp only [bind, Except.bind]; rw [s2]; exact h1
  have hget : ∀ (M : DMat), M.rows = dofList o l → M.cols = dofList o l → ∀ (i2 j2 : K) (p2 q2 : ℕ)
      (hp2 : FirstWithId l i2 p2) (hq2 : FirstWithId l j2 q2),
      ∃ C, getMatrixBlock o l M i2 (some j2) = .ok C ∧ C.rows = (l[p2]'hp2.1).dof o ∧
        C.cols = (l[q2]'hq2.1).dof o ∧ ∀ a b, C.get a b = M.get (off o l p2 + a) (off o l q2 + b) := by
    intro M hr hc i2 j2 p2 q2 hp2 hq2
    have c1 := off_end_le o l p2 hp2.1
    have c2 := off_end_le o l q2 hq2.1
    refine ⟨M.block ⟨off o l p2, off o l p2 + (l[p2]'hp2.1).dof o⟩
      ⟨off o l q2, off o l q2 + (l[q2]'hq2.1).dof o⟩, ?_, ?_, ?_, ?_⟩
    · unfold getMatrixBlock
      rw [getSlice_ok o l i2 p2 hp2]; simp only [bind, Except.bind, Option.getD_some]
      rw [getSlice_ok o l j2 q2 hq2]; rfl
    · simp only [DMat.block]; rw [slice_len (by omega) (by omega)]; omega
    · simp only [DMat.block]; rw [slice_len (by omega) (by omega)]; omega
    · intro a b
      simp only [DMat.block]
      rw [Nat.min_eq_left (by omega), Nat.min_eq_left (by omega)]
  have hgj : ∀ M : DMat, getMatrixBlock o l M i j = getMatrixBlock o l M i (some (j.getD i)) := by
    intro M; unfold getMatrixBlock; simp
  obtain ⟨B', g1, g2, g3, g4⟩ := hget A' (h2.trans hA.1) (h3.trans hA.2) i (j.getD i) p q hp hq
  refine ⟨A', B', hset, h2, h3, by rw [hgj]; exact g1, ⟨g2.trans hB.1.symm, g3.trans hB.2.symm, ?_⟩, ?_⟩
  · intro a b ha hb
    rw [g4, h4 a b (by omega) (by omega)]
  · intro i2 j2 p2 q2 hp2 hq2 hne
    obtain ⟨C, c1, c2, c3, c4⟩ := hget A hA.1 hA.2 i2 j2 p2 q2 hp2 hq2
    obtain ⟨C', d1, d2, d3, d4⟩ := hget A' (h2.trans hA.1) (h3.trans hA.2) i2 j2 p2 q2 hp2 hq2
    refine ⟨C, C', c1, d1, d2.trans c2.symm, d3.trans c3.symm, ?_⟩
    intro a b ha hb
    rw [c4, d4]
    apply h5
    rintro ⟨e1, e2, e3, e4⟩
    rcases hne with hne | hne
    · exact hne (off_disjoint o l hp2.1 hp.1 (a := off o l p2 + a) (by omega) (by omega) e1 e2)
    · exact hne (off_disjoint o l hq2.1 hq.1 (a := off o l q2 + b) (by omega) (by omega) e3 e4)

/-- **C28.** A block whose shape neither matches nor broadcasts raises `ValueError`; exactly then. -/
theorem C28_wrong_size (o : LeafOps L) (l : List (CState K L)) (A B : DMat) (i : K) (j : Option K)
    (p q : ℕ) (hp : FirstWithId l i p) (hq : FirstWithId l (j.getD i) q)
    (hA : A.rows = dofList o l ∧ A.cols = dofList o l) :
    setMatrixBlock o l B A i j = .error .valueError ↔
      ¬ ((B.rows = (l[p]'hp.1).dof o ∨ B.rows = 1) ∧ (B.cols = (l[q]'hq.1).dof o ∨ B.cols = 1)) := by
  have b1 := off_end_le o l p hp.1
  have b2 := off_end_le o l q hq.1
  have e1 : (⟨off o l p, off o l p + (l[p]'hp.1).dof o⟩ : Slice).len A.rows = (l[p]'hp.1).dof o := by
    rw [slice_len (by omega) (by omega)]; omega
  have e2 : (⟨off o l q, off o l q + (l[q]'hq.1).dof o⟩ : Slice).len A.cols = (l[q]'hq.1).dof o := by
    rw [slice_len (by omega) (by omega)]; omega
  unfold setMatrixBlock
  rw [getSlice_ok o l i p hp]; simp only [bind, Except.bind]
  rw [getSlice_ok o l _ q hq]
  simp only
  unfold DMat.setBlock
  rw [e1, e2]
  constructor
  · intro h
    split at h
    · cases h
    · assumption
  · intro h
    rw [if_neg h]

/-- **C28** (finding). "A block of the wrong size raises" is false for `1 × 1` blocks: numpy broadcasts the single
number over the whole block. -/
theorem C28_broadcast (o : LeafOps L) (l : List (CState K L)) (A : DMat) (b : ℝ) (i : K)
    (p : ℕ) (hp : FirstWithId l i p) (hA : A.rows = dofList o l ∧ A.cols = dofList o l) :
    ∃ A', setMatrixBlock o l ⟨1, 1, fun _ _ => b⟩ A i none = .ok A' ∧
      ∀ x y, x < (l[p]'hp.1).dof o → y < (l[p]'hp.1).dof o → A'.get (off o l p + x) (off o l p + y) = b := by
  unfold setMatrixBlock
  rw [getSlice_ok o l i p hp]; simp only [bind, Except.bind, Option.getD_none]
  rw [getSlice_ok o l i p hp]
  simp only
  unfold DMat.setBlock
  rw [if_pos ⟨.inr rfl, .inr rfl⟩]
  refine ⟨_, rfl, ?_⟩
  intro x y hx hy
  simp only
  rw [if_pos ⟨by omega, by omega, by omega, by omega⟩]

/-! ### C29 -/

/-- Specification: `J` is block diagonal along the sub-states of `l`: size `dof × dof`, block `k` on the diagonal is
`blocks k`, everything else 0. -/
def IsBlockDiag (o : LeafOps L) (l : List (CState K L)) (blocks : ℕ → DMat) (J : DMat) : Prop :=
  J.rows = dofList o l ∧ J.cols = dofList o l ∧
  ∀ p q (hp : p < l.length) (hq : q < l.length) a b, a < (l[p]).dof o → b < (l[q]).dof o →
    J.get (off o l p + a) (off o l q + b) = if p = q then (blocks p).get a b else 0

/-- what the block-filling loops do from position `c` on -/
def FilledFrom (o : LeafOps L) (l : List (CState K L)) (blocks : ℕ → DMat) (c : ℕ) (J J' : DMat) : Prop :=
  J'.rows = J.rows ∧ J'.cols = J.cols ∧
  (∀ p (hp : p < l.length) a b, a < (l[p]).dof o → b < (l[p]).dof o →
    J'.get (c + off o l p + a) (c + off o l p + b) = (blocks p).get a b) ∧
  (∀ x y, (∀ p (hp : p < l.length), ¬ (c + off o l p ≤ x ∧ x < c + off o l p + (l[p]).dof o ∧
      c + off o l p ≤ y ∧ y < c + off o l p + (l[p]).dof o)) → J'.get x y = J.get x y)

theorem filled_blockDiag (o : LeafOps L) (l : List (CState K L)) (blocks : ℕ → DMat) (J' : DMat)
    (h : FilledFrom o l blocks 0 (DMat.zeros (dofList o l) (dofList o l)) J') :
    IsBlockDiag o l blocks J' := by
  obtain ⟨h1, h2, h3, h4⟩ := h
  refine ⟨h1, h2, ?_⟩
  intro p q hp hq a b ha hb
  by_cases hpq : p = q
  · subst hpq
    rw [if_pos rfl]
    have := h3 p hp a b ha hb
    simpa using this
  · rw [if_neg hpq, h4]
    · rfl
    · rintro r hr ⟨e1, e2, e3, e4⟩
      have a1 := off_disjoint o l hp hr (a := off o l p + a) (by omega) (by omega) (by omega) (by omega)
      have a2 := off_disjoint o l hq hr (a := off o l q + b) (by omega) (by omega) (by omega) (by omega)
      exact hpq (a1.trans a2.symm)

theorem filled_cons (o : LeafOps L) (x : CState K L) (l : List (CState K L)) (blocks : ℕ → DMat) (c : ℕ)
    (J J1 J2 : DMat) (hr : J1.rows = J.rows) (hc : J1.cols = J.cols)
    (h1 : ∀ i j, i < x.dof o → j < x.dof o → J1.get (c + i) (c + j) = (blocks 0).get i j)
    (h2 : ∀ i j, ¬ (c ≤ i ∧ i < c + x.dof o ∧ c ≤ j ∧ j < c + x.dof o) → J1.get i j = J.get i j)
    (h : FilledFrom o l (fun k => blocks (k + 1)) (c + x.dof o) J1 J2) :
    FilledFrom o (x :: l) blocks c J J2 := by
  obtain ⟨g1, g2, g3, g4⟩ := h
  refine ⟨g1.trans hr, g2.trans hc, ?_, ?_⟩
  · intro p hp a b ha hb
    cases p with
    | zero =>
      rw [off_zero]
      simp only [Nat.add_zero]
      have ha' : a < x.dof o := ha
      have hb' : b < x.dof o := hb
      rw [g4, h1 a b ha' hb']
      rintro q hq ⟨e1, _⟩
      omega
    | succ p =>
      have := g3 p (by simpa using hp) a b (by simpa using ha) (by simpa using hb)
      rw [off_cons]
      rw [← this]
      congr 1 <;> omega
  · intro u v huv
    rw [g4, h2]
    · have := huv 0 (by simp)
      rw [off_zero] at this
      simpa using this
    · intro p hp hcon
      apply huv (p + 1) (by simpa using hp)
      rw [off_cons]
      simp only [List.getElem_cons_succ]
      omega

theorem plusJacList_filled (o : LeafOps L) (l : List (CState K L)) (dx : List ℝ) (blocks : ℕ → DMat)
    (hb : ∀ k (hk : k < l.length), (l[k]).plusJac o ((dx.drop (off o l k)).take ((l[k]).dof o)) = .ok (blocks k) ∧
      (blocks k).rows = (l[k]).dof o ∧ (blocks k).cols = (l[k]).dof o)
    (c : ℕ) (J : DMat) (hr : c + dofList o l ≤ J.rows) (hc : c + dofList o l ≤ J.cols) :
    ∃ J', plusJacList o l dx c J = .ok J' ∧ FilledFrom o l blocks c J J' := by
  induction l generalizing dx blocks c J with
  | nil =>
    refine ⟨J, by rw [plusJacList], rfl, rfl, ?_, ?_⟩
    · intro p hp; simp at hp
    · intros; rfl
  | cons x l ih =>
    rw [dofList] at hr hc
    obtain ⟨h1, h2, h3⟩ := hb 0 (by simp)
    rw [off_zero] at h1
    simp only [List.drop_zero, List.getElem_cons_zero] at h1 h2 h3
    obtain ⟨J1, s1, s2, s3, s4, s5⟩ := setBlock_exact J (blocks 0) c (x.dof o) c (x.dof o) (by omega) (by omega)
      h2 h3
    obtain ⟨J2, t1, t2⟩ := ih (dx.drop (x.dof o)) (fun k => blocks (k + 1)) (by
      intro k hk
      have := hb (k + 1) (by simpa using hk)
      rw [off_cons] at this
      simpa [List.drop_drop, Nat.add_comm] using this) (c + x.dof o) J1 (by omega) (by omega)
    refine ⟨J2, ?_, filled_cons o x l blocks c J J1 J2 s2 s3 s4 s5 t2⟩
    rw [plusJacList, h1]
    simp only [bind, Except.bind]
    rw [s1]
    exact t1

/-- **C29.** `plus_jacobian` of a composite is block diagonal, the `k`-th block being the Jacobian of the `k`-th
sub-state at its slice of `dx` (if these have the size of the sub-state). -/
theorem C29_plus_jacobian (o : LeafOps L) (i : K) (s : Option ℝ) (l : List (CState K L)) (dx : List ℝ)
    (blocks : ℕ → DMat)
    (hb : ∀ k (hk : k < l.length), (l[k]).plusJac o ((dx.drop (off o l k)).take ((l[k]).dof o)) = .ok (blocks k) ∧
      (blocks k).rows = (l[k]).dof o ∧ (blocks k).cols = (l[k]).dof o) :
    ∃ J, (CState.comp i s l).plusJac o dx = .ok J ∧ IsBlockDiag o l blocks J := by
  obtain ⟨J, h1, h2⟩ := plusJacList_filled o l dx blocks hb 0 (DMat.zeros (dofList o l) (dofList o l))
    (by simp [DMat.zeros]) (by simp [DMat.zeros])
  refine ⟨J, by rw [plusJac]; exact h1, filled_blockDiag o l blocks J h2⟩

theorem minusJacList_filled (o : LeafOps L) (l l' : List (CState K L)) (hl : l.length ≤ l'.length)
    (blocks : ℕ → DMat)
    (hb : ∀ k (hk : k < l.length), (l[k]).minusJac o (l'[k]'(by omega)) = .ok (blocks k) ∧
      (blocks k).rows = (l[k]).dof o ∧ (blocks k).cols = (l[k]).dof o)
    (c : ℕ) (J : DMat) (hr : c + dofList o l ≤ J.rows) (hc : c + dofList o l ≤ J.cols) :
    ∃ J', minusJacList o l l' c J = .ok J' ∧ FilledFrom o l blocks c J J' := by
  induction l generalizing l' blocks c J with
  | nil =>
    refine ⟨J, by rw [minusJacList], rfl, rfl, ?_, ?_⟩
    · intro p hp; simp at hp
    · intros; rfl
  | cons x l ih =>
    cases l' with
    | nil => simp at hl
    | cons y l' =>
      rw [dofList] at hr hc
      obtain ⟨h1, h2, h3⟩ := hb 0 (by simp)
      simp only [List.getElem_cons_zero] at h1 h2 h3
      obtain ⟨J1, s1, s2, s3, s4, s5⟩ := setBlock_exact J (blocks 0) c (x.dof o) c (x.dof o) (by omega)
        (by omega) h2 h3
      obtain ⟨J2, t1, t2⟩ := ih l' (by simpa using hl) (fun k => blocks (k + 1)) (by
        intro k hk
        have := hb (k + 1) (by simpa using hk)
        simpa using this) (c + x.dof o) J1 (by omega) (by omega)
      refine ⟨J2, ?_, filled_cons o x l blocks c J J1 J2 s2 s3 s4 s5 t2⟩
      rw [minusJacList, h1]
      simp only [bind, Except.bind]
      rw [s1]
      exact t1

/-- **C29.** `minus_jacobian` of a composite is block diagonal with the sub-states' Jacobians. -/
theorem C29_minus_jacobian (o : LeafOps L) (i i' : K) (s s' : Option ℝ) (l l' : List (CState K L))
    (hl : l.length ≤ l'.length) (blocks : ℕ → DMat)
    (hb : ∀ k (hk : k < l.length), (l[k]).minusJac o (l'[k]'(by omega)) = .ok (blocks k) ∧
      (blocks k).rows = (l[k]).dof o ∧ (blocks k).cols = (l[k]).dof o) :
    ∃ J, (CState.comp i s l).minusJac o (.comp i' s' l') = .ok J ∧ IsBlockDiag o l blocks J := by
  obtain ⟨J, h1, h2⟩ := minusJacList_filled o l l' hl blocks hb 0 (DMat.zeros (dofList o l) (dofList o l))
    (by simp [DMat.zeros]) (by simp [DMat.zeros])
  refine ⟨J, by rw [minusJac]; exact h1, filled_blockDiag o l blocks J h2⟩

mutual
theorem plusJac_shape_aux (o : LeafOps L)
    (ho : ∀ v dx, dx.length = o.dof v → ∃ B, o.plusJac v dx = .ok B ∧ B.rows = o.dof v ∧ B.cols = o.dof v) :
    ∀ (x : CState K L) (dx : List ℝ), dx.length = x.dof o →
      ∃ B, x.plusJac o dx = .ok B ∧ B.rows = x.dof o ∧ B.cols = x.dof o
  | .leaf _ _ v, dx, h => by
    rw [dof] at h ⊢
    rw [plusJac]
    exact ho v dx h
  | .comp i s l, dx, h => by
    rw [dof] at h ⊢
    rw [plusJac]
    obtain ⟨J, h1, h2, h3⟩ := plusJac_shape_list o ho l dx h 0 (DMat.zeros (dofList o l) (dofList o l))
      (by simp [DMat.zeros]) (by simp [DMat.zeros])
    exact ⟨J, h1, h2, h3⟩
theorem plusJac_shape_list (o : LeafOps L)
    (ho : ∀ v dx, dx.length = o.dof v → ∃ B, o.plusJac v dx = .ok B ∧ B.rows = o.dof v ∧ B.cols = o.dof v) :
    ∀ (l : List (CState K L)) (dx : List ℝ), dx.length = dofList o l → ∀ (c : ℕ) (J : DMat),
      c + dofList o l ≤ J.rows → c + dofList o l ≤ J.cols →
      ∃ J', plusJacList o l dx c J = .ok J' ∧ J'.rows = J.rows ∧ J'.cols = J.cols
  | [], dx, h, c, J, _, _ => ⟨J, by rw [plusJacList], rfl, rfl⟩
  | x :: l, dx, h, c, J, hr, hc => by
    rw [dofList] at h hr hc
    obtain ⟨B, b1, b2, b3⟩ := plusJac_shape_aux o ho x (dx.take (x.dof o)) (by simp; omega)
    obtain ⟨J1, s1, s2, s3, _, _⟩ := setBlock_exact J B c (x.dof o) c (x.dof o) (by omega) (by omega) b2 b3
    obtain ⟨J2, t1, t2, t3⟩ := plusJac_shape_list o ho l (dx.drop (x.dof o)) (by simp; omega) (c + x.dof o) J1
      (by omega) (by omega)
    refine ⟨J2, ?_, t2.trans s2, t3.trans s3⟩
    rw [plusJacList, b1]
    simp only [bind, Except.bind]
    rw [s1]; exact t1
end

/-- **C29.** At any nesting depth: if the elementary Jacobians are `dof × dof`, `plus_jacobian` of the composite exists and is
`dof × dof`. -/
theorem C29_plus_jacobian_shape (o : LeafOps L)
    (ho : ∀ v dx, dx.length = o.dof v → ∃ B, o.plusJac v dx = .ok B ∧ B.rows = o.dof v ∧ B.cols = o.dof v)
    (x : CState K L) (dx : List ℝ) (h : dx.length = x.dof o) :
    ∃ B, x.plusJac o dx = .ok B ∧ B.rows = x.dof o ∧ B.cols = x.dof o :=
  plusJac_shape_aux o ho x dx h

/-- Non-vacuity of C29: the nested vector state. -/
example (dx : List ℝ) (h : dx.length = 5) :
    ∃ B, nested.plusJac vectorLeaf dx = .ok B ∧ B.rows = 5 ∧ B.cols = 5 := by
  have h5 : nested.dof vectorLeaf = 5 := by simp [nested, dof, dofList, vectorLeaf]
  rw [← h5]
  exact C29_plus_jacobian_shape vectorLeaf (fun v dx _ => ⟨_, rfl, rfl, rfl⟩) nested dx (by rw [h5]; exact h)

/-- the filling loop of `jacobian_from_blocks` -/
theorem fillBlocks_spec (o : LeafOps L) (l : List (CState K L)) (pos : K → ℕ) (m : ℕ)
    (blocks : List (K × DMat)) (hn : (blocks.map Prod.fst).Nodup)
    (hpos : ∀ ib ∈ blocks, ∃ h : FirstWithId l ib.1 (pos ib.1), ib.2.rows = m ∧
      ib.2.cols = (l[pos ib.1]'h.1).dof o)
    (J : DMat) (hr : J.rows = m) (hc : J.cols = dofList o l) :
    ∃ J', fillBlocks o l blocks J = .ok J' ∧ J'.rows = m ∧ J'.cols = dofList o l ∧
      (∀ ib ∈ blocks, ∀ a b, a < m → b < ib.2.cols → J'.get a (off o l (pos ib.1) + b) = ib.2.get a b) ∧
      (∀ a c, a < m → (∀ ib ∈ blocks, ¬ (off o l (pos ib.1) ≤ c ∧ c < off o l (pos ib.1) + ib.2.cols)) →
        J'.get a c = J.get a c) := by
  induction blocks generalizing J with
  | nil => exact ⟨J, rfl, hr, hc, by simp, by simp⟩
  | cons ib rest ih =>
    obtain ⟨i, B⟩ := ib
    obtain ⟨hf, hB1, hB2⟩ := hpos (i, B) (by simp)
    simp only at hf hB1 hB2
    have hend := off_end_le o l (pos i) hf.1
    obtain ⟨J1, s1, s2, s3, s4, s5⟩ := setBlock_exact J B 0 m (off o l (pos i)) ((l[pos i]'hf.1).dof o)
      (by omega) (by omega) hB1 hB2
    rw [List.map_cons, List.nodup_cons] at hn
    obtain ⟨J2, t1, t2, t3, t4, t5⟩ := ih hn.2 (fun ib hib => hpos ib (List.mem_cons_of_mem _ hib)) J1
      (s2.trans hr) (s3.trans hc)
    have hdisj : ∀ ib ∈ rest, ∀ b, b < B.cols →
        ¬ (off o l (pos ib.1) ≤ off o l (pos i) + b ∧ off o l (pos i) + b < off o l (pos ib.1) + ib.2.cols) := by
      rintro ⟨i2, B2⟩ hib b hb ⟨e1, e2⟩
      obtain ⟨hf2, hC1, hC2⟩ := hpos (i2, B2) (List.mem_cons_of_mem _ hib)
      simp only at hf2 hC1 hC2 e1 e2
      have := off_disjoint o l hf.1 hf2.1 (a := off o l (pos i) + b) (by omega) (by omega) e1 (by omega)
      have hid : i = i2 := by
        have h1 := hf.2.1
        have h2 := hf2.2.1
        rw [← h1, ← h2]
        congr 1
        simp only [this]
      apply hn.1
      rw [hid]
      exact List.mem_map.2 ⟨_, hib, rfl⟩
    refine ⟨J2, ?_, t2, t3, ?_, ?_⟩
    · rw [fillBlocks, getSlice_ok o l i _ hf]
      simp only [bind, Except.bind]
      rw [show (⟨0, J.rows⟩ : Slice) = ⟨0, 0 + m⟩ by rw [hr]; simp, s1]
      exact t1
    · intro ib hib a b ha hb
      rcases List.mem_cons.1 hib with rfl | hib
      · simp only at hb ⊢
        rw [t5 a _ ha (fun ib hib => hdisj ib hib b hb)]
        have := s4 a b ha (by omega)
        simpa using this
      · exact t4 ib hib a b ha hb
    · intro a c ha hcn
      rw [t5 a c ha (fun ib hib => hcn ib (List.mem_cons_of_mem _ hib)), s5]
      have := hcn (i, B) (by simp)
      simp only at this
      omega

/-- **C29.** `jacobian_from_blocks`: for blocks of equal height whose widths match their sub-states, the result has each
block in the columns of its sub-state and zeros everywhere else. -/
theorem C29_from_blocks (o : LeafOps L) (l : List (CState K L)) (pos : K → ℕ) (m : ℕ)
    (blocks : List (K × DMat)) (hne : blocks ≠ []) (hn : (blocks.map Prod.fst).Nodup)
    (hpos : ∀ ib ∈ blocks, ∃ h : FirstWithId l ib.1 (pos ib.1), ib.2.rows = m ∧
      ib.2.cols = (l[pos ib.1]'h.1).dof o) :
    ∃ J, jacobianFromBlocks o l blocks = .ok J ∧ J.rows = m ∧ J.cols = dofList o l ∧
      (∀ ib ∈ blocks, ∀ a b, a < m → b < ib.2.cols → J.get a (off o l (pos ib.1) + b) = ib.2.get a b) ∧
      (∀ a c, a < m → (∀ ib ∈ blocks, ¬ (off o l (pos ib.1) ≤ c ∧ c < off o l (pos ib.1) + ib.2.cols)) →
        J.get a c = 0) := by
  have hlen : 0 < blocks.length := List.length_pos_iff.2 hne
  obtain ⟨_, hm, _⟩ := hpos (blocks[0]) (List.getElem_mem _)
  obtain ⟨J, h1, h2, h3, h4, h5⟩ := fillBlocks_spec o l pos m blocks hn hpos (DMat.zeros m (dofList o l)) rfl rfl
  refine ⟨J, ?_, h2, h3, h4, h5⟩
  unfold jacobianFromBlocks
  rw [pyGet_ok hlen]
  simp only [bind, Except.bind]
  rw [hm]
  exact h1

/-- **C29.** An empty dictionary raises `IndexError`. -/
theorem C29_from_no_blocks (o : LeafOps L) (l : List (CState K L)) :
    jacobianFromBlocks o l [] = .error .indexError := rfl


/-! ### C30 -/

/-- offset of the `k`-th block of a list of matrices, along rows / columns -/
def rowOff (l : List DMat) (k : ℕ) : ℕ := ((l.take k).map DMat.rows).sum
/-- offset along columns -/
def colOff (l : List DMat) (k : ℕ) : ℕ := ((l.take k).map DMat.cols).sum

/-- `scipy.linalg.block_diag` as modelled: total shape, blocks on the diagonal, zeros elsewhere. -/
theorem blockDiagList_spec (l : List DMat) :
    (blockDiagList l).rows = (l.map DMat.rows).sum ∧ (blockDiagList l).cols = (l.map DMat.cols).sum ∧
    ∀ p q (hp : p < l.length) (hq : q < l.length) a b, a < (l[p]).rows → b < (l[q]).cols →
      (blockDiagList l).get (rowOff l p + a) (colOff l q + b) = if p = q then (l[p]).get a b else 0 := by
  induction l with
  | nil => refine ⟨rfl, rfl, ?_⟩; intro p q hp; simp at hp
  | cons A l ih =>
    obtain ⟨h1, h2, h3⟩ := ih
    refine ⟨by simp [blockDiagList, DMat.diag2, h1], by simp [blockDiagList, DMat.diag2, h2], ?_⟩
    intro p q hp hq a b ha hb
    have r0 : rowOff (A :: l) 0 = 0 := rfl
    have c0 : colOff (A :: l) 0 = 0 := rfl
    have rs : ∀ k, rowOff (A :: l) (k + 1) = A.rows + rowOff l k := by intro k; simp [rowOff]
    have cs : ∀ k, colOff (A :: l) (k + 1) = A.cols + colOff l k := by intro k; simp [colOff]
    show (A.diag2 (blockDiagList l)).get _ _ = _
    simp only [DMat.diag2]
    cases p with
    | zero =>
      have ha' : a < A.rows := ha
      cases q with
      | zero =>
        have hb' : b < A.cols := hb
        rw [r0, c0, Nat.zero_add, Nat.zero_add, if_pos ⟨ha', hb'⟩]; simp
      | succ q =>
        rw [r0, cs, Nat.zero_add, if_neg (by omega), if_neg (by omega), if_neg (by omega)]
    | succ p =>
      cases q with
      | zero =>
        have hb' : b < A.cols := hb
        rw [rs, c0, Nat.zero_add, if_neg (by omega), if_neg (by omega), if_neg (by omega)]
      | succ q =>
        rw [rs, cs, if_neg (by omega), if_pos (by omega)]
        have := h3 p q (by simpa using hp) (by simpa using hq) a b (by simpa using ha) (by simpa using hb)
        rw [show A.rows + rowOff l p + a - A.rows = rowOff l p + a by omega,
          show A.cols + colOff l q + b - A.cols = colOff l q + b by omega, this]
        simp

theorem eachSub_spec {β : Type} (ms : List (SubProc K L U)) (shared : Bool) (u : CIn U)
    (g : SubProc K L U → CState K L → CIn U → Except Err β) (xs : List (CState K L)) (c : ℕ) (rs : List β) :
    eachSub ms shared u g c xs = .ok rs ↔
      rs.length = xs.length ∧ ∀ k (hk : k < xs.length) (hk' : k < rs.length), ∃ ui m,
        subInput shared u (c + k) = .ok ui ∧ ms[c + k]? = some m ∧ g m xs[k] ui = .ok rs[k] := by
  induction xs generalizing c rs with
  | nil =>
    rw [eachSub]
    constructor
    · intro h; cases h; simp
    · rintro ⟨h, _⟩
      have : rs = [] := by simpa using h
      rw [this]
  | cons x xs ih =>
    rw [eachSub]
    constructor
    · intro h
      obtain ⟨ui, h1, h⟩ := bind_ok h
      obtain ⟨m, h2, h⟩ := bind_ok h
      obtain ⟨r, h3, h⟩ := bind_ok h
      obtain ⟨rs', h4, h⟩ := bind_ok h
      cases h
      obtain ⟨i1, i2⟩ := (ih (c + 1) rs').1 h4
      refine ⟨by simp [i1], ?_⟩
      intro k hk hk'
      cases k with
      | zero =>
        refine ⟨ui, m, h1, ?_, h3⟩
        unfold pyGet at h2
        split at h2
        · rename_i a ha; cases h2; exact ha
        · cases h2
      | succ k =>
        obtain ⟨ui', m', j1, j2, j3⟩ := i2 k (by simpa using hk) (by simpa using hk')
        exact ⟨ui', m', by rw [← j1]; congr 1; omega, by rw [← j2]; congr 1; omega, j3⟩
    · rintro ⟨hlen, h⟩
      cases rs with
      | nil => simp at hlen
      | cons r rs =>
        obtain ⟨ui, m, h1, h2, h3⟩ := h 0 (by simp) (by simp)
        simp only [Nat.add_zero] at h1 h2
        rw [h1]
        simp only [bind, Except.bind]
        have : pyGet ms c = .ok m := by unfold pyGet; rw [h2]
        rw [this]
        simp only
        rw [show g m x ui = .ok r from h3]
        simp only
        rw [(ih (c + 1) rs).2 ⟨by simpa using hlen, ?_⟩]
        · rfl
        · intro k hk hk'
          obtain ⟨ui', m', j1, j2, j3⟩ := h (k + 1) (by simpa using hk) (by simpa using hk')
          exact ⟨ui', m', by rw [← j1]; congr 1; omega, by rw [← j2]; congr 1; omega, j3⟩

/-- the input of the `k`-th sub-state: the shared input, or the `k`-th of the composite input -/
def InputFor (shared : Bool) (u : CIn U) (k : ℕ) (ui : CIn U) : Prop :=
  (shared = true ∧ ui = u) ∨ (shared = false ∧ ∃ us, u = .composite us ∧ us[k]? = some ui)

theorem subInput_iff (shared : Bool) (u : CIn U) (k : ℕ) (ui : CIn U) :
    subInput shared u k = .ok ui ↔ InputFor shared u k ui := by
  unfold subInput InputFor
  cases shared with
  | true =>
    constructor
    · intro h; left; simp at h; exact ⟨rfl, h.symm⟩
    · rintro (⟨_, rfl⟩ | ⟨h, _⟩)
      · rfl
      · cases h
  | false =>
    cases u with
    | single u =>
      constructor
      · intro h; simp at h
      · rintro (⟨h, _⟩ | ⟨_, us, h, _⟩)
        · cases h
        · cases h
    | composite us =>
      constructor
      · intro h
        right
        refine ⟨rfl, us, rfl, ?_⟩
        simp only [pyGet] at h
        simp at h
        split at h
        · rename_i a ha; cases h; exact ha
        · cases h
      · rintro (⟨h, _⟩ | ⟨_, us', h, h2⟩)
        · cases h
        · cases h
          simp [pyGet, h2]

/-- **C30.** `evaluate`: the `k`-th sub-state of the prediction is the `k`-th model applied to the `k`-th sub-state with its
(or the shared) input; id and stamp of the composite are kept. The result exists exactly when all these do. -/
theorem C30_evaluate (ms : List (SubProc K L U)) (shared : Bool) (u : CIn U) (dt : ℝ) (i : K)
    (s : Option ℝ) (l : List (CState K L)) (y : CState K L) :
    (compositeProc ms shared).evaluate (.comp i s l) u dt = .ok y ↔
      ∃ l', y = .comp i s l' ∧ l'.length = l.length ∧
        ∀ k (hk : k < l.length) (hk' : k < l'.length), ∃ ui m, InputFor shared u k ui ∧ ms[k]? = some m ∧
          m.evaluate l[k] ui dt = .ok l'[k] := by
  constructor
  · intro h
    obtain ⟨l', h1, h2⟩ := bind_ok (show (do
      let l' ← eachSub ms shared u (fun m x ui => m.evaluate x ui dt) 0 l
      return .comp i s l') = Except.ok y from h)
    cases h2
    obtain ⟨e1, e2⟩ := (eachSub_spec ms shared u _ l 0 l').1 h1
    refine ⟨l', rfl, e1, ?_⟩
    intro k hk hk'
    obtain ⟨ui, m, a1, a2, a3⟩ := e2 k hk hk'
    rw [Nat.zero_add] at a1 a2
    exact ⟨ui, m, (subInput_iff _ _ _ _).1 a1, a2, a3⟩
  · rintro ⟨l', rfl, e1, e2⟩
    have := (eachSub_spec ms shared u (fun m x ui => m.evaluate x ui dt) l 0 l').2 ⟨e1, by
      intro k hk hk'
      obtain ⟨ui, m, a1, a2, a3⟩ := e2 k hk hk'
      exact ⟨ui, m, by rw [Nat.zero_add]; exact (subInput_iff _ _ _ _).2 a1, by rw [Nat.zero_add]; exact a2, a3⟩⟩
    show (do
      let l' ← eachSub ms shared u (fun m x ui => m.evaluate x ui dt) 0 l
      return CState.comp i s l') = Except.ok _
    rw [this]; rfl

/-- **C30.** `jacobian` and `covariance` are the block-diagonal matrix of the sub-models' results (`blockDiagList_spec`
says what that is: every cross block is zero). -/
theorem C30_jacobian_covariance (ms : List (SubProc K L U)) (shared : Bool) (u : CIn U) (dt : ℝ) (i : K)
    (s : Option ℝ) (l : List (CState K L)) (J : DMat) :
    ((compositeProc ms shared).jacobian (.comp i s l) u dt = .ok J ↔
      ∃ js : List DMat, J = blockDiagList js ∧ js.length = l.length ∧
        ∀ k (hk : k < l.length) (hk' : k < js.length), ∃ ui m, InputFor shared u k ui ∧ ms[k]? = some m ∧
          m.jacobian l[k] ui dt = .ok js[k]) ∧
    ((compositeProc ms shared).covariance (.comp i s l) u dt = .ok J ↔
      ∃ js : List DMat, J = blockDiagList js ∧ js.length = l.length ∧
        ∀ k (hk : k < l.length) (hk' : k < js.length), ∃ ui m, InputFor shared u k ui ∧ ms[k]? = some m ∧
          m.covariance l[k] ui dt = .ok js[k]) := by
  have key : ∀ g : SubProc K L U → CState K L → CIn U → Except Err DMat,
      ((do let js ← eachSub ms shared u g 0 l; return blockDiagList js) = Except.ok J ↔
      ∃ js : List DMat, J = blockDiagList js ∧ js.length = l.length ∧
        ∀ k (hk : k < l.length) (hk' : k < js.length), ∃ ui m, InputFor shared u k ui ∧ ms[k]? = some m ∧
          g m l[k] ui = .ok js[k]) := by
    intro g
    constructor
    · intro h
      obtain ⟨js, h1, h2⟩ := bind_ok h
      cases h2
      obtain ⟨e1, e2⟩ := (eachSub_spec ms shared u _ l 0 js).1 h1
      refine ⟨js, rfl, e1, ?_⟩
      intro k hk hk'
      obtain ⟨ui, m, a1, a2, a3⟩ := e2 k hk hk'
      rw [Nat.zero_add] at a1 a2
      exact ⟨ui, m, (subInput_iff _ _ _ _).1 a1, a2, a3⟩
    · rintro ⟨js, rfl, e1, e2⟩
      rw [(eachSub_spec ms shared u g l 0 js).2 ⟨e1, by
        intro k hk hk'
        obtain ⟨ui, m, a1, a2, a3⟩ := e2 k hk hk'
        exact ⟨ui, m, by rw [Nat.zero_add]; exact (subInput_iff _ _ _ _).2 a1,
          by rw [Nat.zero_add]; exact a2, a3⟩⟩]
      rfl
  exact ⟨key _, key _⟩

/-- **C30.** Independence: if two composites agree at position `k`, their predictions agree at position `k`, whatever
the other sub-states are. -/
theorem C30_independent (ms : List (SubProc K L U)) (shared : Bool) (u : CIn U) (dt : ℝ) (i i' : K)
    (s s' : Option ℝ) (l1 l2 r1 r2 : List (CState K L)) (k : ℕ) (x : CState K L)
    (h1 : l1[k]? = some x) (h2 : l2[k]? = some x)
    (e1 : (compositeProc ms shared).evaluate (.comp i s l1) u dt = .ok (.comp i s r1))
    (e2 : (compositeProc ms shared).evaluate (.comp i' s' l2) u dt = .ok (.comp i' s' r2)) :
    r1[k]? = r2[k]? := by
  obtain ⟨l1', g1, g2, g3⟩ := (C30_evaluate ms shared u dt i s l1 _).1 e1
  obtain ⟨l2', k1, k2, k3⟩ := (C30_evaluate ms shared u dt i' s' l2 _).1 e2
  cases g1; cases k1
  obtain ⟨a1, a2⟩ := List.getElem?_eq_some_iff.1 h1
  obtain ⟨b1, b2⟩ := List.getElem?_eq_some_iff.1 h2
  obtain ⟨ui, m, c1, c2, c3⟩ := g3 k a1 (by omega)
  obtain ⟨ui', m', d1, d2, d3⟩ := k3 k b1 (by omega)
  have hu : ui = ui' := by
    have x1 := (subInput_iff _ _ _ _).2 c1
    have x2 := (subInput_iff _ _ _ _).2 d1
    rw [x1] at x2; cases x2; rfl
  rw [c2] at d2
  cases d2
  subst hu
  rw [a2] at c3
  rw [b2, c3] at d3
  rw [List.getElem?_eq_getElem (by omega), List.getElem?_eq_getElem (by omega)]
  injection d3 with d3
  rw [d3]

/-- **C30.** A missing model or a missing input is an `IndexError`. -/
theorem C30_too_few (ms : List (SubProc K L U)) (us : List (CIn U)) (dt : ℝ) (i : K) (s : Option ℝ)
    (x : CState K L) (l : List (CState K L)) (h : ms = [] ∨ us = []) :
    (compositeProc ms false).evaluate (.comp i s (x :: l)) (.composite us) dt = .error .indexError := by
  show (do
      let l' ← eachSub ms false (.composite us) (fun m x ui => m.evaluate x ui dt) 0 (x :: l)
      return CState.comp i s l') = _
  rw [eachSub]
  rcases us with _ | ⟨u, us⟩
  · rfl
  · rcases h with rfl | h
    · rfl
    · cases h

open Finset in
/-- positive semidefinite, for run-time sized matrices -/
def DMat.Psd (A : DMat) : Prop :=
  A.rows = A.cols ∧ (∀ i j, i < A.rows → j < A.rows → A.get i j = A.get j i) ∧
  ∀ v : ℕ → ℝ, 0 ≤ ∑ i ∈ range A.rows, ∑ j ∈ range A.rows, v i * A.get i j * v j

open Finset in
theorem diag2_psd (A B : DMat) (hA : A.Psd) (hB : B.Psd) : (A.diag2 B).Psd := by
  obtain ⟨a1, a2, a3⟩ := hA
  obtain ⟨b1, b2, b3⟩ := hB
  refine ⟨by simp [DMat.diag2, a1, b1], ?_, ?_⟩
  · intro i j hi hj
    simp only [DMat.diag2] at hi hj ⊢
    rw [← a1]
    by_cases h1 : i < A.rows <;> by_cases h2 : j < A.rows
    · rw [if_pos ⟨h1, h2⟩, if_pos ⟨h2, h1⟩, a2 i j h1 h2]
    · rw [if_neg (by omega), if_neg (by omega), if_neg (by omega), if_neg (by omega)]
    · rw [if_neg (by omega), if_neg (by omega), if_neg (by omega), if_neg (by omega)]
    · rw [if_neg (by omega), if_pos (by omega), if_neg (by omega), if_pos (by omega),
        b2 _ _ (by omega) (by omega)]
  · intro v
    have hA := a3 v
    have hB := b3 (fun i => v (A.rows + i))
    have hrows : (A.diag2 B).rows = A.rows + B.rows := rfl
    rw [hrows, sum_range_add]
    have e1 : ∑ i ∈ range A.rows, ∑ j ∈ range (A.rows + B.rows), v i * (A.diag2 B).get i j * v j =
        ∑ i ∈ range A.rows, ∑ j ∈ range A.rows, v i * A.get i j * v j := by
      refine sum_congr rfl fun i hi => ?_
      rw [mem_range] at hi
      rw [sum_range_add]
      have : ∑ j ∈ range B.rows, v i * (A.diag2 B).get i (A.rows + j) * v (A.rows + j) = 0 := by
        refine sum_eq_zero fun j hj => ?_
        simp only [DMat.diag2]
        rw [if_neg (by omega), if_neg (by omega)]; simp
      rw [this, add_zero]
      refine sum_congr rfl fun j hj => ?_
      rw [mem_range] at hj
      simp only [DMat.diag2]
      rw [if_pos (by omega)]
    have e2 : ∑ i ∈ range B.rows, ∑ j ∈ range (A.rows + B.rows),
          v (A.rows + i) * (A.diag2 B).get (A.rows + i) j * v j =
        ∑ i ∈ range B.rows, ∑ j ∈ range B.rows, v (A.rows + i) * B.get i j * v (A.rows + j) := by
      refine sum_congr rfl fun i hi => ?_
      rw [mem_range] at hi
      rw [sum_range_add]
      have : ∑ j ∈ range A.rows, v (A.rows + i) * (A.diag2 B).get (A.rows + i) j * v j = 0 := by
        refine sum_eq_zero fun j hj => ?_
        rw [mem_range] at hj
        simp only [DMat.diag2]
        rw [if_neg (by omega), if_neg (by omega)]; simp
      rw [this, zero_add]
      refine sum_congr rfl fun j hj => ?_
      rw [mem_range] at hj
      simp only [DMat.diag2]
      rw [if_neg (by omega), if_pos (by omega), ← a1]
      simp
    rw [e1, e2]
    exact add_nonneg hA hB

theorem blockDiagList_psd (l : List DMat) (h : ∀ A ∈ l, A.Psd) : (blockDiagList l).Psd := by
  induction l with
  | nil => refine ⟨rfl, ?_, ?_⟩ <;> simp [blockDiagList, DMat.zeros]
  | cons A l ih =>
    exact diag2_psd _ _ (h A (by simp)) (ih fun B hB => h B (List.mem_cons_of_mem _ hB))

/-- **C30.** If every sub-model's covariance is positive semidefinite, so is the composite covariance. -/
theorem C30_covariance_psd (ms : List (SubProc K L U)) (shared : Bool) (u : CIn U) (dt : ℝ) (i : K)
    (s : Option ℝ) (l : List (CState K L)) (J : DMat)
    (h : (compositeProc ms shared).covariance (.comp i s l) u dt = .ok J)
    (hm : ∀ m ∈ ms, ∀ x u Q, m.covariance x u dt = .ok Q → Q.Psd) : J.Psd := by
  obtain ⟨js, rfl, h1, h2⟩ := (C30_jacobian_covariance ms shared u dt i s l J).2.1 h
  apply blockDiagList_psd
  intro A hA
  obtain ⟨k, hk, rfl⟩ := List.getElem_of_mem hA
  obtain ⟨ui, m, _, h3, h4⟩ := h2 k (by omega) hk
  exact hm m (List.mem_of_getElem? h3) _ _ _ h4

/-- a process model that adds the input to a vector state -/
noncomputable def addProc : SubProc ℕ (List ℝ) (List ℝ) where
  evaluate x u _ := match u with
    | .single w => x.plus vectorLeaf w
    | _ => .error .typeError
  jacobian _ _ _ := .ok ⟨1, 1, fun _ _ => 1⟩
  covariance _ _ _ := .ok ⟨1, 1, fun _ _ => 1⟩

/-- Non-vacuity of C30: two scalar sub-states with their own inputs. -/
example : (compositeProc [addProc, addProc] false).evaluate
    (.comp 9 none [.leaf 0 none [1], .leaf 1 none [2]]) (.composite [.single [10], .single [20]]) 0 =
    .ok (.comp 9 none [.leaf 0 none [1 + 10], .leaf 1 none [2 + 20]]) := by
  rw [C30_evaluate]
  refine ⟨_, rfl, rfl, ?_⟩
  intro k hk hk'
  simp at hk
  have : k = 0 ∨ k = 1 := by omega
  rcases this with rfl | rfl
  · refine ⟨.single [10], addProc, .inr ⟨rfl, _, rfl, rfl⟩, rfl, ?_⟩
    simp only [addProc, List.getElem_cons_zero]
    rw [CState.plus]; rfl
  · refine ⟨.single [20], addProc, .inr ⟨rfl, _, rfl, rfl⟩, rfl, ?_⟩
    simp only [addProc, List.getElem_cons_succ, List.getElem_cons_zero]
    rw [CState.plus]; rfl

/-- **C30.** `CompositeInput.plus` hands each input exactly its part of `w`, in order. -/
theorem C30_input_plus {W : Type} (dof : W → ℕ) (plus : W → List ℝ → Except Err W) (us us' : List W)
    (w : List ℝ) (h : inputPlus dof plus us w = .ok us') :
    us'.length = us.length ∧ ∀ k (hk : k < us.length) (hk' : k < us'.length),
      plus us[k] ((w.drop ((us.take k).map dof).sum).take (dof us[k])) = .ok us'[k] := by
  induction us generalizing w us' with
  | nil => rw [inputPlus] at h; cases h; simp
  | cons u us ih =>
    rw [inputPlus] at h
    obtain ⟨u', h1, h⟩ := bind_ok h
    obtain ⟨us'', h2, h⟩ := bind_ok h
    cases h
    obtain ⟨i1, i2⟩ := ih _ _ h2
    refine ⟨by simp [i1], ?_⟩
    intro k hk hk'
    cases k with
    | zero => simpa using h1
    | succ k =>
      have := i2 k (by simpa using hk) (by simpa using hk')
      simpa [List.drop_drop, Nat.add_comm] using this

/-! ### C31 -/

/-- **C31.** A composite measurement model evaluates (and takes the covariance of) the wrapped model on the
addressed sub-state only; unknown ids raise `ValueError`. -/
theorem C31_evaluate (m : SubMeas K L) (sid : K) (l : List (CState K L)) (k : ℕ) (hk : FirstWithId l sid k) :
    compMeasEvaluate m sid l = m.evaluate (l[k]'hk.1) ∧
    compMeasCovariance m sid l = m.covariance (l[k]'hk.1) := by
  unfold compMeasEvaluate compMeasCovariance
  rw [getState_ok l sid k hk]
  exact ⟨rfl, rfl⟩

theorem C31_unknown (o : LeafOps L) (m : SubMeas K L) (sid : K) (l : List (CState K L))
    (h : ∀ x ∈ l, x.id ≠ sid) : compMeasEvaluate m sid l = .error .valueError ∧
    compMeasJacobian o m sid l = .error .valueError := by
  unfold compMeasEvaluate compMeasJacobian
  rw [(C26_get l sid (.comp sid none [])).2 h]
  exact ⟨rfl, rfl⟩

/-- **C31.** Its Jacobian is the wrapped Jacobian in the columns of the addressed sub-state and zero in all others. -/
theorem C31_jacobian (o : LeafOps L) (m : SubMeas K L) (sid : K) (l : List (CState K L)) (k : ℕ)
    (hk : FirstWithId l sid k) (B : DMat) (hB : m.jacobian (l[k]'hk.1) = .ok B)
    (hc : B.cols = (l[k]'hk.1).dof o) :
    ∃ J, compMeasJacobian o m sid l = .ok J ∧ J.rows = B.rows ∧ J.cols = dofList o l ∧
      ∀ p (hp : p < l.length) a b, a < B.rows → b < (l[p]).dof o →
        J.get a (off o l p + b) = if p = k then B.get a b else 0 := by
  have hend := off_end_le o l k hk.1
  obtain ⟨J, h1, h2, h3, h4, h5⟩ := setBlock_exact (DMat.zeros B.rows (dofList o l)) B 0 B.rows (off o l k)
    ((l[k]'hk.1).dof o) (by simp [DMat.zeros]) (by simpa [DMat.zeros] using hend) rfl hc
  refine ⟨J, ?_, h2, h3, ?_⟩
  · unfold compMeasJacobian
    rw [getState_ok l sid k hk]
    simp only [bind, Except.bind]
    rw [hB]
    simp only
    rw [getSlice_ok o l sid k hk]
    simp only
    rw [show (⟨0, B.rows⟩ : Slice) = ⟨0, 0 + B.rows⟩ by simp]
    exact h1
  · intro p hp a b ha hb
    by_cases hpk : p = k
    · subst hpk
      rw [if_pos rfl]
      have := h4 a b ha hb
      simpa using this
    · rw [if_neg hpk, h5]
      · rfl
      · rintro ⟨_, _, e3, e4⟩
        exact hpk (off_disjoint o l hp hk.1 (a := off o l p + b) (by omega) (by omega) e3 e4)

mutual
theorem plus_id (o : LeafOps L) : ∀ (x x' : CState K L) (dx : List ℝ), x.plus o dx = .ok x' → x'.id = x.id
  | .leaf i s v, x', dx, h => by
    rw [CState.plus] at h
    obtain ⟨v', _, h2⟩ := bind_ok h
    cases h2; rfl
  | .comp i s l, x', dx, h => by
    rw [CState.plus] at h
    obtain ⟨v', _, h2⟩ := bind_ok h
    cases h2; rfl
end

/-- **C31.** The measurement predicted at a perturbed composite is the wrapped model's at the sub-state perturbed by its
slice of the perturbation: no other component matters. -/
theorem C31_perturbed (o : LeafOps L) (m : SubMeas K L) (sid : K) (l l' : List (CState K L)) (k : ℕ)
    (hk : FirstWithId l sid k) (dx : List ℝ) (h : plusList o l dx = .ok l') :
    ∃ x', (l[k]'hk.1).plus o ((dx.drop (off o l k)).take ((l[k]'hk.1).dof o)) = .ok x' ∧
      compMeasEvaluate m sid l' = m.evaluate x' := by
  obtain ⟨h1, h2⟩ := C25_plus_blockwise o l l' dx h
  have hk1 := hk.1
  refine ⟨l'[k]'(by omega), h2 k hk.1 (by omega), ?_⟩
  have hf : FirstWithId l' sid k := by
    refine ⟨by omega, ?_, ?_⟩
    · rw [plus_id o _ _ _ (h2 k hk.1 (by omega))]; exact hk.2.1
    · intro j hj
      rw [plus_id o _ _ _ (h2 j (by omega) (by omega))]; exact hk.2.2 j hj
  exact (C31_evaluate m sid l' k hf).1

end Verif
