import Verif.Model.Composite

/-!
Lists of objects that carry an identifier, read as maps from identifiers to objects.
-/

set_option linter.unusedSectionVars false
set_option linter.unusedVariables false
set_option linter.unusedSimpArgs false

namespace Verif

variable {K α : Type} [DecidableEq K] {key : α → K}

/-- The map from identifiers to objects that a list with different identifiers stands for. -/
def gMap (key : α → K) (l : List α) : K → Option α := fun i => l.find? fun x => key x = i

/-- `[x.state_id for x in l].index(i)` (`composite.py:79-83`, `365-369`). -/
def gIndex (key : α → K) (l : List α) (i : K) : Except Err ℕ :=
  match l.findIdx? (fun x => key x = i) with
  | some k => .ok k
  | none => .error .valueError

/-! ### Lookups -/

/-- Change the first element with the identifier `i`. -/
def updFirst (key : α → K) (f : α → α) (i : K) : List α → List α
  | [] => []
  | x :: l => if key x = i then f x :: l else x :: updFirst key f i l

theorem gIndex_cons (x : α) (l : List α) (i : K) :
    gIndex key (x :: l) i = if key x = i then .ok 0 else (gIndex key l i).map (· + 1) := by
  unfold gIndex
  rw [List.findIdx?_cons]
  by_cases h : key x = i
  · simp [h]
  · simp only [h, decide_false, Bool.false_eq_true, if_false]
    cases l.findIdx? (fun x => decide (key x = i)) <;> rfl

theorem gIndex_none (l : List α) (i : K) (h : gMap key l i = none) : gIndex key l i = .error .valueError := by
  induction l with
  | nil => rfl
  | cons x l ih =>
    rw [gIndex_cons]
    simp only [gMap, List.find?_cons] at h ih
    by_cases hx : key x = i
    · simp [hx] at h
    · simp only [hx, decide_false] at h
      rw [if_neg hx, ih h]
      rfl

/-- Everything the accessors do with an identifier that is present, through its index. -/
theorem gIndex_some (l : List α) (i : K) (x : α) (h : gMap key l i = some x) :
    ∃ k, gIndex key l i = .ok k ∧ pyGet l k = .ok x ∧ (∀ f, l.modify k f = updFirst key f i l) ∧ (∀ y, l.set k y = updFirst key (fun _ => y) i l) ∧
      l.eraseIdx k = l.eraseP fun x => key x = i := by
  induction l with
  | nil => simp [gMap] at h
  | cons z l ih =>
    simp only [gMap, List.find?_cons] at h ih
    rw [gIndex_cons]
    by_cases hz : key z = i
    · simp only [hz, decide_true, Option.some.injEq] at h
      subst h
      exact ⟨0, by rw [if_pos hz], rfl, fun f => by simp [updFirst, hz], fun y => by simp [updFirst, hz], by simp [hz]⟩
    · simp only [hz, decide_false] at h
      obtain ⟨k, h1, h2, h3, h4, h5⟩ := ih h
      refine ⟨k + 1, by rw [if_neg hz, h1]; rfl, h2, fun f => ?_, fun y => ?_, ?_⟩
      · rw [List.modify_succ_cons, h3, updFirst, if_neg hz]
      · rw [List.set_cons_succ, h4, updFirst, if_neg hz]
      · rw [List.eraseIdx_cons_succ, h5, List.eraseP_cons_of_neg (by simpa using hz)]

theorem gMap_add (l : List α) (x : α) (h : gMap key l (key x) = none) :
    gMap key (l ++ [x]) = Function.update (gMap key l) (key x) (some x) := by
  funext j
  simp only [gMap] at h ⊢
  rw [List.find?_append]
  by_cases hj : j = key x
  · subst hj
    simp [h]
  · rw [Function.update_of_ne hj]
    simp [gMap, Ne.symm hj]

theorem gMap_upd (f : α → α) (i : K) (hf : ∀ x, key x = i → key (f x) = i) (l : List α) :
    gMap key (updFirst key f i l) = Function.update (gMap key l) i ((gMap key l i).map f) := by
  funext j
  induction l with
  | nil =>
    by_cases hj : j = i
    · subst hj; simp [gMap, updFirst]
    · rw [Function.update_of_ne hj]; rfl
  | cons x l ih =>
    unfold updFirst
    by_cases hx : key x = i
    · rw [if_pos hx]
      by_cases hj : j = i
      · subst hj
        simp [gMap, hx, hf x hx]
      · rw [Function.update_of_ne hj]
        simp [gMap, List.find?_cons, hx, hf x hx, Ne.symm hj]
    · rw [if_neg hx]
      by_cases hj : j = i
      · subst hj
        simp only [Function.update_self] at ih ⊢
        simpa [gMap, List.find?_cons, hx] using ih
      · rw [Function.update_of_ne hj] at ih ⊢
        simp only [gMap, List.find?_cons] at ih ⊢
        rw [ih]

theorem gMap_map (f : α → α) (hf : ∀ x, key (f x) = key x) (l : List α) (j : K) :
    gMap key (l.map f) j = (gMap key l j).map f := by
  induction l with
  | nil => rfl
  | cons x l ih =>
    simp only [gMap, List.map_cons, List.find?_cons, hf] at ih ⊢
    by_cases hx : key x = j
    · simp [hx]
    · simp only [hx, decide_false]; exact ih

theorem gMap_none_of (l : List α) (i : K) (h : i ∉ l.map key) : gMap key l i = none := by
  simp only [gMap, List.find?_eq_none]
  intro x hx hi
  exact h (List.mem_map.2 ⟨x, hx, by simpa using hi⟩)

theorem notMem_of_gMap (l : List α) (i : K) (h : gMap key l i = none) : i ∉ l.map key := by
  simp only [gMap, List.find?_eq_none] at h
  intro hi
  obtain ⟨x, hx, rfl⟩ := List.mem_map.1 hi
  exact h x hx (by simp)

theorem gMap_erase (i : K) (l : List α) (hn : (l.map key).Nodup) :
    gMap key (l.eraseP fun x => key x = i) = Function.update (gMap key l) i none := by
  funext j
  induction l with
  | nil =>
    by_cases hj : j = i
    · subst hj; simp [gMap]
    · rw [Function.update_of_ne hj]; rfl
  | cons x l ih =>
    rw [List.map_cons, List.nodup_cons] at hn
    by_cases hx : key x = i
    · rw [List.eraseP_cons_of_pos (by simpa using hx)]
      by_cases hj : j = i
      · subst hj
        rw [Function.update_self]
        exact gMap_none_of l _ (hx ▸ hn.1)
      · rw [Function.update_of_ne hj]
        simp [gMap, List.find?_cons, hx, Ne.symm hj]
    · rw [List.eraseP_cons_of_neg (by simpa using hx)]
      have ih := ih hn.2
      by_cases hj : j = i
      · subst hj
        rw [Function.update_self] at ih ⊢
        simpa [gMap, List.find?_cons, hx] using ih
      · rw [Function.update_of_ne hj] at ih ⊢
        simp only [gMap, List.find?_cons] at ih ⊢
        rw [ih]

theorem ids_upd (f : α → α) (i : K) (hf : ∀ x, key x = i → key (f x) = i) (l : List α) :
    (updFirst key f i l).map key = l.map key := by
  induction l with
  | nil => rfl
  | cons x l ih =>
    unfold updFirst
    by_cases hx : key x = i
    · simp [if_pos hx, hf x hx, hx]
    · simp [if_neg hx, ih]

end Verif
