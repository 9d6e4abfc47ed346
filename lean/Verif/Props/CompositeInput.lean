import Verif.Model.CompositeInput
import Verif.Props.Composite
import Verif.Lemmas.Keyed

/-!
C135: a `CompositeInput` is a map from identifiers to inputs, after any history of calls. C26: so is a `CompositeState`.
-/

set_option linter.unusedSectionVars false
set_option linter.unusedVariables false
set_option linter.unusedSimpArgs false

namespace Verif

variable {K W : Type} [DecidableEq K]

/-! ### Specification -/

/-- What a caller may do with a `CompositeInput`. -/
inductive InOp (K W : Type) where
  | add (x : SubIn K W)
  | remove (i : K)
  | setStamp (s : Option ℝ) (i : K)
  | set (x : SubIn K W) (i : K)
  | stampAll (s : Option ℝ)

/-- One call. -/
def InOp.call (l : List (SubIn K W)) : InOp K W → Except Err (List (SubIn K W))
  | .add x => .ok (cinAdd l x)
  | .remove i => cinRemove l i
  | .setStamp s i => cinSetStamp l s i
  | .set x i => cinSet l x i
  | .stampAll s => .ok (cinSetStampAll l s)

/-- A history of calls whose exceptions are caught: the inputs afterwards, and what each call raised. The functions look the identifier
up before they change anything, so a call which raises leaves the inputs as they were. -/
def inHistory : List (SubIn K W) → List (InOp K W) → List (SubIn K W) × List (Option Err)
  | l, [] => (l, [])
  | l, o :: os =>
    match o.call l with
    | .ok l' => ((inHistory l' os).1, none :: (inHistory l' os).2)
    | .error e => ((inHistory l os).1, some e :: (inHistory l os).2)

/-- A map from identifiers to inputs. -/
abbrev InMap (K W : Type) := K → Option (SubIn K W)

/-- The same call on a map. -/
def InOp.onMap (m : InMap K W) : InOp K W → InMap K W
  | .add x => Function.update m x.id (some x)
  | .remove i => Function.update m i none
  | .setStamp s i => Function.update m i ((m i).map fun x => { x with stamp := s })
  | .set x i => Function.update m i ((m i).map fun _ => x)
  | .stampAll s => fun i => (m i).map fun x => { x with stamp := s }

/-- What the call should raise: `ValueError` if there is no input with the identifier. -/
def InOp.raises (m : InMap K W) : InOp K W → Option Err
  | .add _ | .stampAll _ => none
  | .remove i | .setStamp _ i | .set _ i => if m i = none then some .valueError else none

/-- A call that keeps identifiers unique: an added input has a new one, an input is replaced by one with the same. -/
def InOp.Tidy (m : InMap K W) : InOp K W → Prop
  | .add x => m x.id = none
  | .set x i => x.id = i
  | _ => True

/-- A history on a map. -/
def mapHistory : InMap K W → List (InOp K W) → InMap K W × List (Option Err)
  | m, [] => (m, [])
  | m, o :: os => ((mapHistory (o.onMap m) os).1, o.raises m :: (mapHistory (o.onMap m) os).2)

/-- A history of calls that keep identifiers unique. -/
def TidyHistory : InMap K W → List (InOp K W) → Prop
  | _, [] => True
  | m, o :: os => o.Tidy m ∧ TidyHistory (o.onMap m) os

/-- The map that a list of inputs with different identifiers stands for. -/
def asMap (l : List (SubIn K W)) : InMap K W := fun i => l.find? fun x => x.id = i

/-! ### One call -/

theorem cinIndex_none (l : List (SubIn K W)) (i : K) (h : asMap l i = none) : cinIndex l i = .error .valueError :=
  gIndex_none (key := SubIn.id) l i h

theorem cinIndex_some (l : List (SubIn K W)) (i : K) (x : SubIn K W) (h : asMap l i = some x) :
    ∃ k, cinIndex l i = .ok k ∧ pyGet l k = .ok x ∧ (∀ f, l.modify k f = updFirst SubIn.id f i l) ∧
      (∀ y, l.set k y = updFirst SubIn.id (fun _ => y) i l) ∧ l.eraseIdx k = l.eraseP fun x => x.id = i :=
  gIndex_some (key := SubIn.id) l i x h


theorem call_spec (l : List (SubIn K W)) (hn : (l.map (·.id)).Nodup) (o : InOp K W) (ht : o.Tidy (asMap l)) :
    (∃ l', o.call l = .ok l' ∧ o.raises (asMap l) = none ∧ (l'.map (·.id)).Nodup ∧ asMap l' = o.onMap (asMap l)) ∨
    (∃ e, o.call l = .error e ∧ o.raises (asMap l) = some e ∧ o.onMap (asMap l) = asMap l) := by
  cases o with
  | add x =>
    have ht : asMap l x.id = none := ht
    refine .inl ⟨l ++ [x], rfl, rfl, ?_, gMap_add (key := SubIn.id) l x ht⟩
    rw [List.map_append]
    refine List.nodup_append.2 ⟨hn, by simp, ?_⟩
    rintro a ha b hb rfl
    simp only [List.map_cons, List.map_nil, List.mem_singleton] at hb
    exact notMem_of_gMap (key := SubIn.id) l _ ht (hb ▸ ha)
  | stampAll s =>
    refine .inl ⟨_, rfl, rfl, ?_, ?_⟩
    · simpa [cinSetStampAll, List.map_map, Function.comp_def] using hn
    · funext j
      exact gMap_map (key := SubIn.id) (fun x => { x with stamp := s }) (fun _ => rfl) l j
  | remove i =>
    rcases h : asMap l i with _ | x
    · refine .inr ⟨.valueError, ?_, by simp [InOp.raises, h], ?_⟩
      · show cinRemove l i = _
        unfold cinRemove; rw [cinIndex_none l i h]; rfl
      · show Function.update (asMap l) i none = _
        rw [← h, Function.update_eq_self]
    · obtain ⟨k, h1, -, -, -, h5⟩ := cinIndex_some l i x h
      refine .inl ⟨l.eraseP fun x => x.id = i, ?_, by simp [InOp.raises, h], ?_, gMap_erase (key := SubIn.id) i l hn⟩
      · show cinRemove l i = _
        unfold cinRemove; rw [h1, ← h5]; rfl
      · exact hn.sublist (List.eraseP_sublist.map _)
  | setStamp s i =>
    rcases h : asMap l i with _ | x
    · refine .inr ⟨.valueError, ?_, by simp [InOp.raises, h], ?_⟩
      · show cinSetStamp l s i = _
        unfold cinSetStamp; rw [cinIndex_none l i h]; rfl
      · show Function.update (asMap l) i _ = _
        rw [h, Option.map_none, ← h, Function.update_eq_self]
    · obtain ⟨k, h1, -, h3, -, -⟩ := cinIndex_some l i x h
      refine .inl ⟨updFirst SubIn.id (fun x => { x with stamp := s }) i l, ?_, by simp [InOp.raises, h], ?_, ?_⟩
      · show cinSetStamp l s i = _
        unfold cinSetStamp; rw [h1, ← h3]; rfl
      · rw [ids_upd (key := SubIn.id) (fun x => { x with stamp := s }) i (fun x hx => hx)]; exact hn
      · exact gMap_upd (key := SubIn.id) (fun x => { x with stamp := s }) i (fun x hx => hx) l
  | set y i =>
    have ht : y.id = i := ht
    rcases h : asMap l i with _ | x
    · refine .inr ⟨.valueError, ?_, by simp [InOp.raises, h], ?_⟩
      · show cinSet l y i = _
        unfold cinSet; rw [cinIndex_none l i h]; rfl
      · show Function.update (asMap l) i _ = _
        rw [h, Option.map_none, ← h, Function.update_eq_self]
    · obtain ⟨k, h1, -, -, h4, -⟩ := cinIndex_some l i x h
      refine .inl ⟨updFirst SubIn.id (fun _ => y) i l, ?_, by simp [InOp.raises, h], ?_, ?_⟩
      · show cinSet l y i = _
        unfold cinSet; rw [h1, ← h4]; rfl
      · rw [ids_upd (key := SubIn.id) _ _ (fun x _ => ht)]; exact hn
      · exact gMap_upd (key := SubIn.id) _ i (fun x _ => ht) l

/-! ### Histories -/

/-- C135: after any history of calls that keep identifiers unique, the `CompositeInput` is the map from identifiers to inputs that the
calls describe, identifiers are still unique, and exactly the calls for an absent identifier have raised, `ValueError`. -/
theorem C135_history (os : List (InOp K W)) (l : List (SubIn K W)) (hn : (l.map (·.id)).Nodup) (ht : TidyHistory (asMap l) os) :
    ((inHistory l os).1.map (·.id)).Nodup ∧ asMap (inHistory l os).1 = (mapHistory (asMap l) os).1 ∧
      (inHistory l os).2 = (mapHistory (asMap l) os).2 := by
  induction os generalizing l with
  | nil => exact ⟨hn, rfl, rfl⟩
  | cons o os ih =>
    obtain ⟨t1, t2⟩ := ht
    rcases call_spec l hn o t1 with ⟨l', c1, c2, c3, c4⟩ | ⟨e, c1, c2, c3⟩
    · obtain ⟨i1, i2, i3⟩ := ih l' c3 (c4 ▸ t2)
      simp only [inHistory, c1, mapHistory, ← c4, c2]
      exact ⟨i1, i2, by rw [i3]⟩
    · obtain ⟨i1, i2, i3⟩ := ih l hn (c3 ▸ t2)
      simp only [inHistory, c1, mapHistory, c3, c2]
      exact ⟨i1, i2, by rw [i3]⟩

/-- C135: the reading accessors return what the map says about the identifier, and raise `ValueError` if it says nothing. (With
identifiers that are not unique they read the first.) -/
theorem C135_get (dof : W → ℕ) (l : List (SubIn K W)) (i : K) :
    (∀ x, asMap l i = some x → cinGet l i = .ok x ∧ cinGetStamp l i = .ok x.stamp ∧ cinGetDof dof l i = .ok (dof x.value)) ∧
    (asMap l i = none → cinGet l i = .error .valueError ∧ cinGetStamp l i = .error .valueError ∧ cinGetDof dof l i = .error .valueError) := by
  refine ⟨fun x h => ?_, fun h => ?_⟩
  · obtain ⟨k, h1, h2, -⟩ := cinIndex_some l i x h
    unfold cinGet cinGetStamp cinGetDof
    rw [h1]
    refine ⟨h2, ?_, ?_⟩
    · show (pyGet l k >>= fun x => pure x.stamp) = _
      rw [h2]; rfl
    · show (pyGet l k >>= fun x => pure (dof x.value)) = _
      rw [h2]; rfl
  · unfold cinGet cinGetStamp cinGetDof
    rw [cinIndex_none l i h]
    exact ⟨rfl, rfl, rfl⟩

/-- C135: the size is the sum of those of the inputs that the map holds, each counted once. -/
theorem C135_dof (dof : W → ℕ) (l : List (SubIn K W)) (hn : (l.map (·.id)).Nodup) :
    cinDof dof l = ∑ i ∈ (l.map (·.id)).toFinset, ((asMap l i).map fun x => dof x.value).getD 0 := by
  induction l with
  | nil => simp [cinDof]
  | cons x l ih =>
    rw [List.map_cons, List.nodup_cons] at hn
    have ih := ih hn.2
    rw [List.map_cons, List.toFinset_cons, Finset.sum_insert (by simpa using hn.1)]
    have h0 : asMap (x :: l) x.id = some x := by simp [asMap]
    rw [h0]
    have h1 : ∀ i ∈ (l.map (·.id)).toFinset, ((asMap (x :: l) i).map fun x => dof x.value).getD 0 = ((asMap l i).map fun x => dof x.value).getD 0 := by
      intro i hi
      have : x.id ≠ i := by
        rintro rfl
        exact hn.1 (List.mem_toFinset.1 hi)
      simp [asMap, List.find?_cons, this]
    rw [Finset.sum_congr rfl h1, ← ih]
    simp [cinDof]

/-- C135: `stamp` is that of the first input, so after `set_stamp_for_all` the given one; without inputs it raises `IndexError`. -/
theorem C135_stamp (x : SubIn K W) (l : List (SubIn K W)) (s : Option ℝ) :
    cinStamp (x :: l) = .ok x.stamp ∧ cinStamp (cinSetStampAll (x :: l) s) = .ok s ∧
    cinStamp ([] : List (SubIn K W)) = .error .indexError :=
  ⟨rfl, rfl, rfl⟩

/-- C135: `plus` keeps the identifiers and stamps of all inputs and hands each exactly its part of `w`, in order. -/
theorem C135_plus (dof : W → ℕ) (plus : W → List ℝ → Except Err W) (l l' : List (SubIn K W)) (w : List ℝ)
    (h : cinPlus dof plus l w = .ok l') :
    l'.map (·.id) = l.map (·.id) ∧ l'.map (·.stamp) = l.map (·.stamp) ∧ ∀ k (hk : k < l.length) (hk' : k < l'.length),
      plus l[k].value ((w.drop ((l.take k).map fun x => dof x.value).sum).take (dof l[k].value)) = .ok l'[k].value := by
  obtain ⟨h1, h2⟩ := C30_input_plus _ _ l l' w h
  have h3 : ∀ k (hk : k < l.length) (hk' : k < l'.length), l'[k].id = l[k].id ∧ l'[k].stamp = l[k].stamp ∧
      plus l[k].value ((w.drop ((l.take k).map fun x => dof x.value).sum).take (dof l[k].value)) = .ok l'[k].value := by
    intro k hk hk'
    have := h2 k hk hk'
    obtain ⟨v, e1, e2⟩ := bind_ok this
    have e2 := Except.ok.inj e2
    rw [← e2]
    exact ⟨rfl, rfl, e1⟩
  refine ⟨?_, ?_, fun k hk hk' => (h3 k hk hk').2.2⟩
  · refine List.ext_getElem (by simp [h1]) fun k hk hk' => ?_
    simpa using (h3 k (by simpa using hk') (by simpa using hk)).1
  · refine List.ext_getElem (by simp [h1]) fun k hk hk' => ?_
    simpa using (h3 k (by simpa using hk') (by simpa using hk)).2.1

/-- C135 (refutation): `add_input` does not check the identifier: an input added under one that is present is hidden behind the first,
counts towards the size, and appears when the first is removed. -/
theorem C135_shadow (dof : W → ℕ) (x y : SubIn K W) (h : y.id = x.id) :
    cinGet (cinAdd [x] y) y.id = .ok x ∧ cinDof dof (cinAdd [x] y) = dof x.value + dof y.value ∧
    ∃ l', cinRemove (cinAdd [x] y) y.id = .ok l' ∧ cinGet l' y.id = .ok y := by
  refine ⟨((C135_get dof (cinAdd [x] y) y.id).1 x ?_).1, by simp [cinDof, cinAdd], [y], ?_, ((C135_get dof [y] y.id).1 y ?_).1⟩
  · simp [asMap, cinAdd, h]
  · unfold cinRemove
    have : cinIndex (cinAdd [x] y) y.id = .ok 0 := by
      show cinIndex (x :: [y]) y.id = _
      exact (gIndex_cons (key := SubIn.id) x [y] y.id).trans (if_pos h.symm)
    rw [this]; rfl
  · simp [asMap]

/-! ### Example -/

/-- Two inputs; a third is added, the first is stamped, removed and no longer found. -/
def exOps : List (InOp ℕ ℕ) := [.add ⟨3, none, 30⟩, .setStamp (some 2) 1, .set ⟨2, some 7, 25⟩ 2, .remove 1, .remove 1, .stampAll (some 9)]

def exIns : List (SubIn ℕ ℕ) := [⟨1, none, 10⟩, ⟨2, none, 20⟩]

example : (exIns.map (·.id)).Nodup ∧ TidyHistory (asMap exIns) exOps ∧
    (inHistory exIns exOps).2 = [none, none, none, none, some .valueError, none] ∧
    (inHistory exIns exOps).1 = [⟨2, some 9, 25⟩, ⟨3, some 9, 30⟩] := by
  refine ⟨by decide, ?_, ?_, ?_⟩
  · simp [exOps, TidyHistory, InOp.Tidy, exIns, asMap]
  · rfl
  · rfl

/-! ### `CompositeState` -/

section CompositeState

open CState

variable {L : Type}

/-- What a caller may do with a `CompositeState`. -/
inductive StOp (K L : Type) where
  | add (x : CState K L)
  | remove (i : K)
  | setStamp (s : Option ℝ) (i : K)
  | set (x : CState K L) (i : K)
  | setValue (v : L) (i : K)
  | stampAll (s : Option ℝ)

/-- One call. -/
def StOp.call (l : List (CState K L)) : StOp K L → Except Err (List (CState K L))
  | .add x => .ok (addState l x)
  | .remove i => removeById l i
  | .setStamp s i => setStampById l s i
  | .set x i => setStateById l x i
  | .setValue v i => setValueById l v i
  | .stampAll s => .ok (setStampForAll l s)

/-- A history of calls whose exceptions are caught. -/
def stHistory : List (CState K L) → List (StOp K L) → List (CState K L) × List (Option Err)
  | l, [] => (l, [])
  | l, o :: os =>
    match o.call l with
    | .ok l' => ((stHistory l' os).1, none :: (stHistory l' os).2)
    | .error e => ((stHistory l os).1, some e :: (stHistory l os).2)

/-- The map that a list of states with different identifiers stands for. -/
def stMap (l : List (CState K L)) : K → Option (CState K L) := fun i => l.find? fun x => x.id = i

/-- A state with another stamp. -/
def CState.withStamp (s : Option ℝ) : CState K L → CState K L
  | .leaf i _ v => .leaf i s v
  | .comp i _ l => .comp i s l

/-- An elementary state with another value. -/
def CState.withValue (v : L) : CState K L → CState K L
  | .leaf i s _ => .leaf i s v
  | .comp i s l => .comp i s l

/-- The same call on a map. -/
def StOp.onMap (m : K → Option (CState K L)) : StOp K L → K → Option (CState K L)
  | .add x => Function.update m x.id (some x)
  | .remove i => Function.update m i none
  | .setStamp s i => Function.update m i ((m i).map (CState.withStamp s))
  | .set x i => Function.update m i ((m i).map fun _ => x)
  | .setValue v i => Function.update m i ((m i).map (CState.withValue v))
  | .stampAll s => fun i => (m i).map (CState.withStamp s)

/-- What the call should raise. -/
def StOp.raises (m : K → Option (CState K L)) : StOp K L → Option Err
  | .add _ | .stampAll _ => none
  | .remove i | .setStamp _ i | .set _ i | .setValue _ i => if (m i).isNone then some .valueError else none

/-- A call that keeps identifiers unique; values are given to elementary states only. -/
def StOp.Tidy (m : K → Option (CState K L)) : StOp K L → Prop
  | .add x => m x.id = none
  | .set x i => x.id = i
  | .setValue _ i => ∀ x, m i = some x → ∃ s v, x = .leaf i s v
  | _ => True

/-- A history on a map. -/
def stMapHistory : (K → Option (CState K L)) → List (StOp K L) → (K → Option (CState K L)) × List (Option Err)
  | m, [] => (m, [])
  | m, o :: os => ((stMapHistory (o.onMap m) os).1, o.raises m :: (stMapHistory (o.onMap m) os).2)

/-- A history of calls that keep identifiers unique. -/
def StTidyHistory : (K → Option (CState K L)) → List (StOp K L) → Prop
  | _, [] => True
  | m, o :: os => o.Tidy m ∧ StTidyHistory (o.onMap m) os

theorem setStamp_eq (s : Option ℝ) : (CState.setStamp s : CState K L → CState K L) = CState.withStamp s := by
  funext x; cases x <;> rfl

theorem setLeafValue_eq (v : L) : (CState.setLeafValue v : CState K L → CState K L) = CState.withValue v := by
  funext x; cases x <;> rfl

theorem withStamp_id (s : Option ℝ) (x : CState K L) : (x.withStamp s).id = x.id := by cases x <;> rfl

theorem withValue_id (v : L) (x : CState K L) : (x.withValue v).id = x.id := by cases x <;> rfl

theorem stIndex_none (l : List (CState K L)) (i : K) (h : stMap l i = none) : getIndexById l i = .error .valueError :=
  gIndex_none (key := CState.id) l i h

theorem stIndex_some (l : List (CState K L)) (i : K) (x : CState K L) (h : stMap l i = some x) :
    ∃ k, getIndexById l i = .ok k ∧ pyGet l k = .ok x ∧ (∀ f, l.modify k f = updFirst CState.id f i l) ∧
      (∀ y, l.set k y = updFirst CState.id (fun _ => y) i l) ∧ l.eraseIdx k = l.eraseP fun x => x.id = i :=
  gIndex_some (key := CState.id) l i x h

theorem stCall_spec (l : List (CState K L)) (hn : (l.map CState.id).Nodup) (o : StOp K L) (ht : o.Tidy (stMap l)) :
    (∃ l', o.call l = .ok l' ∧ o.raises (stMap l) = none ∧ (l'.map CState.id).Nodup ∧ stMap l' = o.onMap (stMap l)) ∨
    (∃ e, o.call l = .error e ∧ o.raises (stMap l) = some e ∧ o.onMap (stMap l) = stMap l) := by
  cases o with
  | add x =>
    have ht : stMap l x.id = none := ht
    refine .inl ⟨l ++ [x], rfl, rfl, ?_, gMap_add (key := CState.id) l x ht⟩
    rw [List.map_append]
    refine List.nodup_append.2 ⟨hn, by simp, ?_⟩
    rintro a ha b hb rfl
    simp only [List.map_cons, List.map_nil, List.mem_singleton] at hb
    exact notMem_of_gMap (key := CState.id) l _ ht (hb ▸ ha)
  | stampAll s =>
    refine .inl ⟨l.map (CState.withStamp s), ?_, rfl, ?_, ?_⟩
    · show Except.ok (l.map (CState.setStamp s)) = _
      rw [setStamp_eq]
    · have : (CState.id ∘ CState.withStamp s : CState K L → K) = CState.id := funext (withStamp_id s)
      rw [List.map_map, this]; exact hn
    · funext j
      exact gMap_map (key := CState.id) (CState.withStamp s) (withStamp_id s) l j
  | remove i =>
    rcases h : stMap l i with _ | x
    · refine .inr ⟨.valueError, ?_, by simp [StOp.raises, h], ?_⟩
      · show removeById l i = _
        unfold removeById; rw [stIndex_none l i h]; rfl
      · show Function.update (stMap l) i none = _
        rw [← h, Function.update_eq_self]
    · obtain ⟨k, h1, -, -, -, h5⟩ := stIndex_some l i x h
      refine .inl ⟨l.eraseP fun x => x.id = i, ?_, by simp [StOp.raises, h], ?_, gMap_erase (key := CState.id) i l hn⟩
      · show removeById l i = _
        unfold removeById; rw [h1, ← h5]; rfl
      · exact hn.sublist (List.eraseP_sublist.map _)
  | setStamp s i =>
    rcases h : stMap l i with _ | x
    · refine .inr ⟨.valueError, ?_, by simp [StOp.raises, h], ?_⟩
      · show setStampById l s i = _
        unfold setStampById; rw [stIndex_none l i h]; rfl
      · show Function.update (stMap l) i _ = _
        rw [h, Option.map_none, ← h, Function.update_eq_self]
    · obtain ⟨k, h1, -, h3, -, -⟩ := stIndex_some l i x h
      refine .inl ⟨updFirst CState.id (CState.withStamp s) i l, ?_, by simp [StOp.raises, h], ?_, ?_⟩
      · show setStampById l s i = _
        unfold setStampById; rw [h1, ← h3, setStamp_eq]; rfl
      · rw [ids_upd (key := CState.id) _ i (fun x hx => (withStamp_id s x).trans hx)]; exact hn
      · exact gMap_upd (key := CState.id) (CState.withStamp s) i (fun x hx => (withStamp_id s x).trans hx) l
  | setValue v i =>
    rcases h : stMap l i with _ | x
    · refine .inr ⟨.valueError, ?_, by simp [StOp.raises, h], ?_⟩
      · show setValueById l v i = _
        unfold setValueById; rw [stIndex_none l i h]; rfl
      · show Function.update (stMap l) i _ = _
        rw [h, Option.map_none, ← h, Function.update_eq_self]
    · obtain ⟨k, h1, -, h3, -, -⟩ := stIndex_some l i x h
      refine .inl ⟨updFirst CState.id (CState.withValue v) i l, ?_, by simp [StOp.raises, h], ?_, ?_⟩
      · show setValueById l v i = _
        unfold setValueById; rw [h1, ← h3, setLeafValue_eq]; rfl
      · rw [ids_upd (key := CState.id) _ i (fun x hx => (withValue_id v x).trans hx)]; exact hn
      · exact gMap_upd (key := CState.id) (CState.withValue v) i (fun x hx => (withValue_id v x).trans hx) l
  | set y i =>
    have ht : y.id = i := ht
    rcases h : stMap l i with _ | x
    · refine .inr ⟨.valueError, ?_, by simp [StOp.raises, h], ?_⟩
      · show setStateById l y i = _
        unfold setStateById; rw [stIndex_none l i h]; rfl
      · show Function.update (stMap l) i _ = _
        rw [h, Option.map_none, ← h, Function.update_eq_self]
    · obtain ⟨k, h1, -, -, h4, -⟩ := stIndex_some l i x h
      refine .inl ⟨updFirst CState.id (fun _ => y) i l, ?_, by simp [StOp.raises, h], ?_, ?_⟩
      · show setStateById l y i = _
        unfold setStateById; rw [h1, ← h4]; rfl
      · rw [ids_upd (key := CState.id) (fun _ => y) i (fun x _ => ht)]; exact hn
      · exact gMap_upd (key := CState.id) (fun _ => y) i (fun x _ => ht) l

/-- C26: after any history of calls that keep identifiers unique, a `CompositeState` is the map from identifiers to states that the calls
describe, identifiers are still unique, and exactly the calls for an absent identifier have raised, `ValueError`. -/
theorem C26_history (os : List (StOp K L)) (l : List (CState K L)) (hn : (l.map CState.id).Nodup) (ht : StTidyHistory (stMap l) os) :
    ((stHistory l os).1.map CState.id).Nodup ∧ stMap (stHistory l os).1 = (stMapHistory (stMap l) os).1 ∧
      (stHistory l os).2 = (stMapHistory (stMap l) os).2 := by
  induction os generalizing l with
  | nil => exact ⟨hn, rfl, rfl⟩
  | cons o os ih =>
    obtain ⟨t1, t2⟩ := ht
    rcases stCall_spec l hn o t1 with ⟨l', c1, c2, c3, c4⟩ | ⟨e, c1, c2, c3⟩
    · obtain ⟨i1, i2, i3⟩ := ih l' c3 (c4 ▸ t2)
      simp only [stHistory, c1, stMapHistory, ← c4, c2]
      exact ⟨i1, i2, by rw [i3]⟩
    · obtain ⟨i1, i2, i3⟩ := ih l hn (c3 ▸ t2)
      simp only [stHistory, c1, stMapHistory, c3, c2]
      exact ⟨i1, i2, by rw [i3]⟩

/-- C26: `get_value_by_id`, `get_dof_by_id` and `get_stamp_by_id` return the attributes of the state that `get_state_by_id` returns, and
raise what it raises. -/
theorem C26_get_attributes (o : LeafOps L) (l : List (CState K L)) (i : K) :
    (∀ j s v, getStateById l i = .ok (.leaf j s v) →
      getValueById l i = .ok (.inl v) ∧ getDofById o l i = .ok (o.dof v) ∧ getStampById l i = .ok s) ∧
    (∀ j s l', getStateById l i = .ok (.comp j s l') →
      getValueById l i = .ok (.inr l') ∧ getDofById o l i = .ok ((l'.map fun x => x.dof o).sum) ∧ getStampById l i = .ok s) ∧
    (∀ e, getStateById l i = .error e → getValueById l i = .error e ∧ getDofById o l i = .error e ∧ getStampById l i = .error e) := by
  have h1 : getValueById l i = (getStateById l i).bind fun x => .ok x.value := by
    unfold getValueById getStateById; cases getIndexById l i <;> rfl
  have h2 : getDofById o l i = (getStateById l i).bind fun x => .ok (x.dof o) := by
    unfold getDofById getStateById; cases getIndexById l i <;> rfl
  have h3 : getStampById l i = (getStateById l i).bind fun x => .ok x.stamp := by
    unfold getStampById getStateById; cases getIndexById l i <;> rfl
  have h4 : ∀ l' : List (CState K L), dofList o l' = (l'.map fun x => x.dof o).sum := by
    intro l'
    induction l' with
    | nil => rfl
    | cons x l' ih => rw [dofList, ih]; simp
  refine ⟨fun j s v h => ?_, fun j s l' h => ?_, fun e h => ?_⟩
  · rw [h1, h2, h3, h]; exact ⟨rfl, rfl, rfl⟩
  · rw [h1, h2, h3, h, ← h4]; exact ⟨rfl, rfl, rfl⟩
  · rw [h1, h2, h3, h]; exact ⟨rfl, rfl, rfl⟩

/-- A pose-like state and a bias; the bias gets a value, a landmark is added, the bias is removed, and is no longer found. -/
example : StTidyHistory (stMap [CState.leaf 1 none (10 : ℕ), .leaf 2 none 20])
      [.setValue 21 2, .add (.comp 3 none []), .remove 2, .setStamp none 2, .stampAll (some 9)] ∧
    (stHistory [CState.leaf 1 none (10 : ℕ), .leaf 2 none 20]
      [.setValue 21 2, .add (.comp 3 none []), .remove 2, .setStamp none 2, .stampAll (some 9)]).2
      = [none, none, none, some .valueError, none] := by
  refine ⟨?_, rfl⟩
  simp [StTidyHistory, StOp.Tidy, StOp.onMap, stMap, CState.id, List.find?_cons]

end CompositeState

end Verif
