import Verif.Model.Composite

/-!
`CompositeInput` and its accessors (`composite.py:348-442`).
-/

namespace Verif

/-- An elementary input (`types.py:10-31`): its identifier, its timestamp and its value. Two identifiers are equal when `==` says so. -/
structure SubIn (K W : Type) where
  id : K
  stamp : Option ℝ
  value : W

variable {K W : Type} [DecidableEq K]

/-- `composite.py:365-369` (`get_index_by_id`): `list.index`, the first match or `ValueError`. -/
def cinIndex (l : List (SubIn K W)) (i : K) : Except Err ℕ :=
  match l.findIdx? (fun x => x.id = i) with
  | some k => .ok k
  | none => .error .valueError

/-- `composite.py:357-359` (`dof`). -/
def cinDof (dof : W → ℕ) (l : List (SubIn K W)) : ℕ := (l.map fun x => dof x.value).sum

/-- `composite.py:361-363` (`stamp`): that of the first input; `IndexError` if there is none. -/
def cinStamp (l : List (SubIn K W)) : Except Err (Option ℝ) := do
  let x ← pyGet l 0
  return x.stamp

/-- `composite.py:371-375` (`add_input`). -/
def cinAdd (l : List (SubIn K W)) (x : SubIn K W) : List (SubIn K W) := l ++ [x]

/-- `composite.py:377-382` (`remove_input_by_id`): `list.pop(idx)`. -/
def cinRemove (l : List (SubIn K W)) (i : K) : Except Err (List (SubIn K W)) := do
  let k ← cinIndex l i
  return l.eraseIdx k

/-- `composite.py:384-389` (`get_input_by_id`). -/
def cinGet (l : List (SubIn K W)) (i : K) : Except Err (SubIn K W) := do
  let k ← cinIndex l i
  pyGet l k

/-- `composite.py:391-396` (`get_dof_by_id`). -/
def cinGetDof (dof : W → ℕ) (l : List (SubIn K W)) (i : K) : Except Err ℕ := do
  let k ← cinIndex l i
  let x ← pyGet l k
  return dof x.value

/-- `composite.py:398-403` (`get_stamp_by_id`). -/
def cinGetStamp (l : List (SubIn K W)) (i : K) : Except Err (Option ℝ) := do
  let k ← cinIndex l i
  let x ← pyGet l k
  return x.stamp

/-- `composite.py:405-410` (`set_stamp_by_id`). -/
def cinSetStamp (l : List (SubIn K W)) (s : Option ℝ) (i : K) : Except Err (List (SubIn K W)) := do
  let k ← cinIndex l i
  return l.modify k fun x => { x with stamp := s }

/-- `composite.py:412-417` (`set_input_by_id`). -/
def cinSet (l : List (SubIn K W)) (x : SubIn K W) (i : K) : Except Err (List (SubIn K W)) := do
  let k ← cinIndex l i
  return l.set k x

/-- `composite.py:419-424` (`set_stamp_for_all`). -/
def cinSetStampAll (l : List (SubIn K W)) (s : Option ℝ) : List (SubIn K W) := l.map fun x => { x with stamp := s }

/-- `composite.py:435-442` (`plus`), when `plus` of each input keeps its stamp and identifier, as `VectorInput.plus`
(`states.py:719-732`) does. -/
def cinPlus (dof : W → ℕ) (plus : W → List ℝ → Except Err W) (l : List (SubIn K W)) (w : List ℝ) : Except Err (List (SubIn K W)) :=
  inputPlus (fun x => dof x.value) (fun x w => do let v ← plus x.value w; return { x with value := v }) l w

end Verif
