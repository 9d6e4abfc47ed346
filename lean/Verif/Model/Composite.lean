import Verif.Model.Basic

/-!
`CompositeState`, `CompositeInput`, `CompositeProcessModel`, `CompositeMeasurementModel`
(`navlie/composite.py`). Matrices here have shapes known only at run time.

Simplification: sub-states are values, so two list entries never share one mutable object.
-/

namespace Verif

/-- A two-dimensional numpy array; entries outside `rows × cols` are meaningless. -/
structure DMat where
  rows : ℕ
  cols : ℕ
  get : ℕ → ℕ → ℝ

/-- Equal as arrays: same shape and entries. -/
def DMat.Same (A B : DMat) : Prop :=
  A.rows = B.rows ∧ A.cols = B.cols ∧ ∀ i j, i < A.rows → j < A.cols → A.get i j = B.get i j

/-- `np.zeros((r, c))`. -/
def DMat.zeros (r c : ℕ) : DMat := ⟨r, c, fun _ _ => 0⟩

/-- A Python slice `slice(start, stop)` with nonnegative bounds. -/
structure Slice where
  start : ℕ
  stop : ℕ
  deriving DecidableEq

/-- Length of a slice of an axis of length `n` (numpy clips slices to the axis). -/
def Slice.len (s : Slice) (n : ℕ) : ℕ := min s.stop n - min s.start n

/-- `A[s1, s2]`. -/
def DMat.block (A : DMat) (s1 s2 : Slice) : DMat :=
  ⟨s1.len A.rows, s2.len A.cols, fun i j => A.get (min s1.start A.rows + i) (min s2.start A.cols + j)⟩

/-- `A[s1, s2] = B` for a two-dimensional `B`, with numpy broadcasting: an axis of `B` of length 1 is repeated,
any other length mismatch is a `ValueError`. -/
def DMat.setBlock (A : DMat) (s1 s2 : Slice) (B : DMat) : Except Err DMat :=
  if (B.rows = s1.len A.rows ∨ B.rows = 1) ∧ (B.cols = s2.len A.cols ∨ B.cols = 1) then
    .ok ⟨A.rows, A.cols, fun i j =>
      if s1.start ≤ i ∧ i < s1.stop ∧ s2.start ≤ j ∧ j < s2.stop then
        B.get (if B.rows = 1 then 0 else i - s1.start) (if B.cols = 1 then 0 else j - s2.start)
      else A.get i j⟩
  else .error .valueError

/-- What a non-composite `State` class provides (`types.py:48-183`): `dof`, `plus`, `minus`,
`plus_jacobian`, `minus_jacobian`, on values; each may raise. -/
structure LeafOps (L : Type) where
  dof : L → ℕ
  plus : L → List ℝ → Except Err L
  minus : L → L → Except Err (List ℝ)
  plusJac : L → List ℝ → Except Err DMat
  minusJac : L → L → Except Err DMat

/-- A state: either an elementary one or a `CompositeState` (`composite.py:7-48`) of any nesting depth. -/
inductive CState (K L : Type) where
  | leaf (id : K) (stamp : Option ℝ) (v : L)
  | comp (id : K) (stamp : Option ℝ) (subs : List (CState K L))

namespace CState

variable {K L : Type}

/-- `state.state_id` -/
def id : CState K L → K
  | leaf i _ _ => i
  | comp i _ _ => i

/-- `state.stamp` -/
def stamp : CState K L → Option ℝ
  | leaf _ s _ => s
  | comp _ s _ => s

/-- `state.stamp = s` -/
def setStamp (s : Option ℝ) : CState K L → CState K L
  | leaf i _ v => leaf i s v
  | comp i _ l => comp i s l

mutual
/-- `composite.py:75-77` (`dof`). -/
def dof (o : LeafOps L) : CState K L → ℕ
  | leaf _ _ v => o.dof v
  | comp _ _ l => dofList o l
/-- `sum([x.dof for x in self.value])` -/
def dofList (o : LeafOps L) : List (CState K L) → ℕ
  | [] => 0
  | x :: l => x.dof o + dofList o l
end

mutual
/-- `composite.py:255-268` (`CompositeState.plus` without `new_stamp`). -/
def plus (o : LeafOps L) : CState K L → List ℝ → Except Err (CState K L)
  | leaf i s v, dx => do
    let v' ← o.plus v dx
    return leaf i s v'
  | comp i s l, dx => do
    let l' ← plusList o l dx
    return comp i s l'
/-- `composite.py:261-263`: `new.value[i] = state.plus(dx[:state.dof]); dx = dx[state.dof:]`. -/
def plusList (o : LeafOps L) : List (CState K L) → List ℝ → Except Err (List (CState K L))
  | [], _ => .ok []
  | x :: l, dx => do
    let x' ← plus o x (dx.take (x.dof o))
    let l' ← plusList o l (dx.drop (x.dof o))
    return x' :: l'
end

mutual
/-- `composite.py:270-277` (`CompositeState.minus`): iterates over the OTHER state's list; the empty
concatenation raises `ValueError`. Simplification: mixing a composite with an elementary state is `typeError`. -/
def minus (o : LeafOps L) : CState K L → CState K L → Except Err (List ℝ)
  | leaf _ _ v, leaf _ _ w => o.minus v w
  | comp _ _ l, comp _ _ l' => do
    let ds ← minusList o l l'
    if l'.isEmpty then .error .valueError else .ok ds
  | leaf _ _ _, comp _ _ _ => .error .typeError
  | comp _ _ _, leaf _ _ _ => .error .typeError
/-- `composite.py:271-275`; `reshape((dof,))` raises if the size is wrong. -/
def minusList (o : LeafOps L) : List (CState K L) → List (CState K L) → Except Err (List ℝ)
  | _, [] => .ok []
  | [], _ :: _ => .error .indexError
  | a :: l, b :: l' => do
    let d ← minus o a b
    let d ← if d.length = a.dof o then .ok d else .error .valueError
    let ds ← minusList o l l'
    return d ++ ds
end

mutual
/-- `composite.py:309-321` (`plus_jacobian`). -/
def plusJac (o : LeafOps L) : CState K L → List ℝ → Except Err DMat
  | leaf _ _ v, dx => o.plusJac v dx
  | comp _ _ l, dx => plusJacList o l dx 0 (DMat.zeros (dofList o l) (dofList o l))
/-- the loop of `composite.py:313-319` -/
def plusJacList (o : LeafOps L) : List (CState K L) → List ℝ → ℕ → DMat → Except Err DMat
  | [], _, _, J => .ok J
  | x :: l, dx, c, J => do
    let B ← plusJac o x (dx.take (x.dof o))
    let J' ← J.setBlock ⟨c, c + x.dof o⟩ ⟨c, c + x.dof o⟩ B
    plusJacList o l (dx.drop (x.dof o)) (c + x.dof o) J'
end

mutual
/-- `composite.py:323-334` (`minus_jacobian`). -/
def minusJac (o : LeafOps L) : CState K L → CState K L → Except Err DMat
  | leaf _ _ v, leaf _ _ w => o.minusJac v w
  | comp _ _ l, comp _ _ l' => minusJacList o l l' 0 (DMat.zeros (dofList o l) (dofList o l))
  | leaf _ _ _, comp _ _ _ => .error .typeError
  | comp _ _ _, leaf _ _ _ => .error .typeError
/-- the loop of `composite.py:327-332`: iterates over SELF's list, so a shorter `x` is an `IndexError`. -/
def minusJacList (o : LeafOps L) : List (CState K L) → List (CState K L) → ℕ → DMat → Except Err DMat
  | [], _, _, J => .ok J
  | _ :: _, [], _, _ => .error .indexError
  | a :: l, b :: l', c, J => do
    let B ← minusJac o a b
    let J' ← J.setBlock ⟨c, c + a.dof o⟩ ⟨c, c + a.dof o⟩ B
    minusJacList o l l' (c + a.dof o) J'
end

end CState

open CState

variable {K L : Type} [DecidableEq K]

/-- `composite.py:79-83` (`get_index_by_id`): `list.index`, the first match or `ValueError`. -/
def getIndexById (l : List (CState K L)) (i : K) : Except Err ℕ :=
  match l.findIdx? (fun x => x.id = i) with
  | some k => .ok k
  | none => .error .valueError

/-- the loop of `composite.py:85-95` -/
def slicesFrom (o : LeafOps L) : ℕ → List (CState K L) → List Slice
  | _, [] => []
  | c, x :: l => ⟨c, c + x.dof o⟩ :: slicesFrom o (c + x.dof o) l

/-- `composite.py:85-95` (`get_slices`). -/
def getSlices (o : LeafOps L) (l : List (CState K L)) : List Slice := slicesFrom o 0 l

/-- Python list indexing `l[k]`, `k ≥ 0`. -/
def pyGet {α : Type} (l : List α) (k : ℕ) : Except Err α :=
  match l[k]? with
  | some a => .ok a
  | none => .error .indexError

/-- `composite.py:106-115` (`get_slice_by_id`) with `slices=None`. -/
def getSliceById (o : LeafOps L) (l : List (CState K L)) (i : K) : Except Err Slice := do
  let k ← getIndexById l i
  pyGet (getSlices o l) k

/-- `composite.py:117-145` (`get_matrix_block_by_ids`). -/
def getMatrixBlock (o : LeafOps L) (l : List (CState K L)) (A : DMat) (i : K) (j : Option K) :
    Except Err DMat := do
  let s1 ← getSliceById o l i
  let s2 ← getSliceById o l (j.getD i)
  return A.block s1 s2

/-- `composite.py:147-182` (`set_matrix_block_by_ids`); returns (and modifies) `mat`. -/
def setMatrixBlock (o : LeafOps L) (l : List (CState K L)) (B A : DMat) (i : K) (j : Option K) :
    Except Err DMat := do
  let s1 ← getSliceById o l i
  let s2 ← getSliceById o l (j.getD i)
  A.setBlock s1 s2 B

/-- `composite.py:191-196` (`get_state_by_id`). -/
def getStateById (l : List (CState K L)) (i : K) : Except Err (CState K L) := do
  let k ← getIndexById l i
  pyGet l k

/-- The `value` attribute: that of an elementary state, or the list of sub-states (`composite.py:42-43`). -/
def CState.value : CState K L → L ⊕ List (CState K L)
  | .leaf _ _ v => .inl v
  | .comp _ _ l => .inr l

/-- `composite.py:184-189` (`get_value_by_id`). -/
def getValueById (l : List (CState K L)) (i : K) : Except Err (L ⊕ List (CState K L)) := do
  let k ← getIndexById l i
  let x ← pyGet l k
  return x.value

/-- `composite.py:198-203` (`get_dof_by_id`). -/
def getDofById (o : LeafOps L) (l : List (CState K L)) (i : K) : Except Err ℕ := do
  let k ← getIndexById l i
  let x ← pyGet l k
  return x.dof o

/-- `composite.py:205-210` (`get_stamp_by_id`). -/
def getStampById (l : List (CState K L)) (i : K) : Except Err (Option ℝ) := do
  let k ← getIndexById l i
  let x ← pyGet l k
  return x.stamp

/-- `composite.py:219-224` (`set_state_by_id`). -/
def setStateById (l : List (CState K L)) (x : CState K L) (i : K) : Except Err (List (CState K L)) := do
  let k ← getIndexById l i
  return l.set k x

/-- `composite.py:212-217` (`set_stamp_by_id`). -/
def setStampById (l : List (CState K L)) (s : Option ℝ) (i : K) : Except Err (List (CState K L)) := do
  let k ← getIndexById l i
  return l.modify k (CState.setStamp s)

/-- `state.value = v` for an elementary state (assigning an elementary value to a composite is outside the
model; the theorems exclude it). -/
def CState.setLeafValue (v : L) : CState K L → CState K L
  | .leaf i s _ => .leaf i s v
  | x => x

/-- `composite.py:226-231` (`set_value_by_id`) on an elementary sub-state. -/
def setValueById (l : List (CState K L)) (v : L) (i : K) : Except Err (List (CState K L)) := do
  let k ← getIndexById l i
  return l.modify k (CState.setLeafValue v)

/-- `composite.py:233-238` (`set_stamp_for_all`): the direct sub-states only. -/
def setStampForAll (l : List (CState K L)) (s : Option ℝ) : List (CState K L) :=
  l.map (CState.setStamp s)

/-- `composite.py:97-99` (`add_state`). -/
def addState (l : List (CState K L)) (x : CState K L) : List (CState K L) := l ++ [x]

/-- `composite.py:101-104` (`remove_state_by_id`): `list.pop(idx)`. -/
def removeById (l : List (CState K L)) (i : K) : Except Err (List (CState K L)) := do
  let k ← getIndexById l i
  return l.eraseIdx k

/-- `composite.py:255-268` (`plus` with the optional `new_stamp`, which is written to the sub-states only). -/
def plusStamped (o : LeafOps L) (x : CState K L) (dx : List ℝ) (newStamp : Option ℝ) :
    Except Err (CState K L) := do
  let x' ← x.plus o dx
  match x', newStamp with
  | .comp i s l, some t => .ok (.comp i s (setStampForAll l (some t)))
  | x', _ => .ok x'

/-- `composite.py:279-291` (`plus_by_id`): line 287 calls `new.value[idx].plus(dx)` and DISCARDS the new
sub-state it returns. -/
def plusById (o : LeafOps L) (l : List (CState K L)) (dx : List ℝ) (i : K) (newStamp : Option ℝ) :
    Except Err (List (CState K L)) := do
  let k ← getIndexById l i
  let x ← pyGet l k
  let _ ← x.plus o dx
  match newStamp with
  | none => .ok l
  | some t => setStampById l (some t) i

/-- the loop of `composite.py:303-306`: `jac[:, slc] = block` -/
def fillBlocks (o : LeafOps L) (l : List (CState K L)) : List (K × DMat) → DMat → Except Err DMat
  | [], J => .ok J
  | (i, B) :: rest, J => do
    let s ← getSliceById o l i
    let J' ← J.setBlock ⟨0, J.rows⟩ s B
    fillBlocks o l rest J'

/-- `composite.py:293-307` (`jacobian_from_blocks`); the dictionary is a list of distinct keys in insertion
order, an empty one raises `IndexError`. -/
def jacobianFromBlocks (o : LeafOps L) (l : List (CState K L)) (blocks : List (K × DMat)) :
    Except Err DMat := do
  let first ← pyGet blocks 0
  fillBlocks o l blocks (DMat.zeros first.2.rows (dofList o l))

/-! ### Inputs and process models -/

/-- An input: elementary or `CompositeInput` (`composite.py:348-361`). -/
inductive CIn (U : Type) where
  | single (u : U)
  | composite (us : List (CIn U))

/-- A (sub-)process model; every method may raise. -/
structure SubProc (K L U : Type) where
  evaluate : CState K L → CIn U → ℝ → Except Err (CState K L)
  jacobian : CState K L → CIn U → ℝ → Except Err DMat
  covariance : CState K L → CIn U → ℝ → Except Err DMat

variable {U : Type}

/-- `composite.py:487-490`: `u` itself if shared, otherwise `u.input_list[i]`. -/
def subInput (shared : Bool) (u : CIn U) (i : ℕ) : Except Err (CIn U) :=
  if shared then .ok u else
    match u with
    | .single _ => .error .attributeError
    | .composite us => pyGet us i

/-- One pass of the loops of `composite.py:486-491 / 501-506 / 517-522` for a method `g` of the models. -/
def eachSub {β : Type} (ms : List (SubProc K L U)) (shared : Bool) (u : CIn U)
    (g : SubProc K L U → CState K L → CIn U → Except Err β) : ℕ → List (CState K L) → Except Err (List β)
  | _, [] => .ok []
  | i, x :: xs => do
    let ui ← subInput shared u i
    let m ← pyGet ms i
    let r ← g m x ui
    let rs ← eachSub ms shared u g (i + 1) xs
    return r :: rs

/-- `block_diag(A, B)` of scipy for two blocks. -/
def DMat.diag2 (A B : DMat) : DMat :=
  ⟨A.rows + B.rows, A.cols + B.cols, fun i j =>
    if i < A.rows ∧ j < A.cols then A.get i j
    else if A.rows ≤ i ∧ A.cols ≤ j then B.get (i - A.rows) (j - A.cols)
    else 0⟩

/-- `scipy.linalg.block_diag(*blocks)`. Simplification: for no blocks at all scipy returns a `1 × 0` array,
here it is `0 × 0`. -/
def blockDiagList : List DMat → DMat
  | [] => DMat.zeros 0 0
  | A :: l => A.diag2 (blockDiagList l)

/-- `composite.py:445-524` (`CompositeProcessModel`). On a non-composite state the code fails with
exceptions that depend on the value's type (modelled as `typeError`). -/
def compositeProc (ms : List (SubProc K L U)) (shared : Bool) : SubProc K L U where
  evaluate x u dt :=
    match x with
    | .leaf _ _ _ => .error .typeError
    | .comp i s l => do
      let l' ← eachSub ms shared u (fun m x ui => m.evaluate x ui dt) 0 l
      return .comp i s l'
  jacobian x u dt :=
    match x with
    | .leaf _ _ _ => .error .typeError
    | .comp _ _ l => do
      let js ← eachSub ms shared u (fun m x ui => m.jacobian x ui dt) 0 l
      return blockDiagList js
  covariance x u dt :=
    match x with
    | .leaf _ _ _ => .error .typeError
    | .comp _ _ l => do
      let js ← eachSub ms shared u (fun m x ui => m.covariance x ui dt) 0 l
      return blockDiagList js

/-! ### Measurement models -/

/-- A (sub-)measurement model. -/
structure SubMeas (K L : Type) where
  evaluate : CState K L → Except Err (Option (List ℝ))
  jacobian : CState K L → Except Err DMat
  covariance : CState K L → Except Err DMat

/-- `composite.py:551-567` (`CompositeMeasurementModel`), on the sub-state list of a composite state. -/
def compMeasEvaluate (m : SubMeas K L) (sid : K) (l : List (CState K L)) : Except Err (Option (List ℝ)) := do
  let x ← getStateById l sid
  m.evaluate x

/-- `composite.py:554-562` -/
def compMeasJacobian (o : LeafOps L) (m : SubMeas K L) (sid : K) (l : List (CState K L)) : Except Err DMat := do
  let x ← getStateById l sid
  let B ← m.jacobian x
  let s ← getSliceById o l sid
  (DMat.zeros B.rows (dofList o l)).setBlock ⟨0, B.rows⟩ s B

/-- `composite.py:564-567` -/
def compMeasCovariance (m : SubMeas K L) (sid : K) (l : List (CState K L)) : Except Err DMat := do
  let x ← getStateById l sid
  m.covariance x

/-- `composite.py:348-442` (`CompositeInput.plus`): consume `w` input by input. -/
def inputPlus {W : Type} (dof : W → ℕ) (plus : W → List ℝ → Except Err W) :
    List W → List ℝ → Except Err (List W)
  | [], _ => .ok []
  | u :: us, w => do
    let u' ← plus u (w.take (dof u))
    let us' ← inputPlus dof plus us (w.drop (dof u))
    return u' :: us'

end Verif
