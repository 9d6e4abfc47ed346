import Verif.Model.States
import Verif.Model.Ekf
import Verif.Model.RunFilter

/-!
Objects and references. The rest of the model treats states as immutable values; this file models the same code on a
heap of mutable Python objects, so that sharing ("aliasing") between what the caller holds and what the library
returns can be stated. A reference is an index into the heap; objects are never freed.

Modelled: constructors, `copy`, `plus` and the attribute writes of `VectorState`, `MatrixLieGroupState` (and its
subclasses), `CompositeState`, `IMUState`, `StateWithCovariance`, `MixtureState`, `VectorInput`, `CompositeInput`,
`IMU`; `ExtendedKalmanFilter.predict/correct` and `run_filter`.

Simplifications: numbers, strings and `None` are immutable and stored in the object itself; numpy arrays are one- or
two-dimensional and own their memory (numpy views such as `value[0:3, 0:3]` are not objects of the model); an
exception discards the heap.
-/

namespace Verif.Heap

open Verif

/-- A reference to an object: an index into the heap. -/
notation "Ref" => Nat

/-- A `state_id`: `None` or a string (identifiers are immutable). -/
abbrev Id := Option String

/-- The state classes around one `pymlg` group (`states.py:215-643`); `base d` is `MatrixLieGroupState` itself with a
group of `d` degrees of freedom (`states.py:58-119`). -/
inductive LieCls where
  | SO2 | SO3 | SE2 | SE3 | SE23 | SL3
  | base (d : ℕ)
  deriving DecidableEq

/-- `group.dof` -/
def LieCls.dof : LieCls → ℕ
  | .SO2 => 1
  | .SO3 => 3
  | .SE2 => 3
  | .SE3 => 6
  | .SE23 => 9
  | .SL3 => 8
  | .base d => d

/-- A Python object, with references to the objects stored in its attributes. -/
inductive Obj where
  /-- a numpy array -/
  | arr (a : Arr)
  /-- a Python list of objects -/
  | list (elems : List Ref)
  /-- `VectorState` (`states.py:22-34`) -/
  | vec (value : Ref) (dof : ℕ) (stamp : Option ℝ) (id : Id)
  /-- `MatrixLieGroupState` and subclasses (`states.py:58-119`) -/
  | lie (cls : LieCls) (value : Ref) (stamp : Option ℝ) (id : Id) (dir : String)
  /-- `CompositeState` (`composite.py:7-48`); `value` is a list -/
  | comp (value : Ref) (stamp : Option ℝ) (id : Id)
  /-- `IMUState` (`imu.py:138-180`); `value` is a list -/
  | imuState (value : Ref) (stamp : Option ℝ) (id : Id)
  /-- `StateWithCovariance` (`types.py:512-550`) -/
  | swc (state cov : Ref)
  /-- `MixtureState` (`states.py:646-656`): a list of `StateWithCovariance` and an array of probabilities -/
  | mix (states probs : Ref)
  /-- `VectorInput` (`states.py:676-716`) -/
  | vinput (value : Ref) (stamp : Option ℝ) (id : Id) (cov : Option Ref)
  /-- `CompositeInput` (`composite.py:348-358`) -/
  | cinput (inputs : Ref)
  /-- `IMU` (`imu.py:15-69`) with both bias walks present -/
  | imu (gyro accel walkGyro walkAccel : Ref) (stamp : Option ℝ) (id : Id) (cov : Option Ref)

/-- The references stored in an object. -/
def Obj.refs : Obj → List Ref
  | .arr _ => []
  | .list l => l
  | .vec v _ _ _ => [v]
  | .lie _ v _ _ _ => [v]
  | .comp v _ _ => [v]
  | .imuState v _ _ => [v]
  | .swc s c => [s, c]
  | .mix s p => [s, p]
  | .vinput v _ _ c => v :: c.toList
  | .cinput l => [l]
  | .imu g a wg wa _ _ c => g :: a :: wg :: wa :: c.toList

/-- The heap. -/
abbrev Heap := List Obj

/-! ### Reading and allocating -/

/-- Allocation: the new object gets the next free reference. -/
def alloc (h : Heap) (o : Obj) : Ref × Heap := (h.length, h ++ [o])

/-- An attribute that must hold a numpy array (anything else has no `.copy()`/`.size` of that kind). -/
def readArr (h : Heap) (r : Ref) : Except Err Arr :=
  match h[r]? with
  | some (.arr a) => .ok a
  | _ => .error .attributeError

/-- An attribute that must hold a Python list. -/
def readList (h : Heap) (r : Ref) : Except Err (List Ref) :=
  match h[r]? with
  | some (.list l) => .ok l
  | _ => .error .typeError

/-- `array.copy()`. -/
def copyArr (h : Heap) (r : Ref) : Except Err (Ref × Heap) := do
  let a ← readArr h r
  return alloc h (.arr a)

/-- Copying the elements of a list one after the other. -/
def copyAll (f : Heap → Ref → Except Err (Ref × Heap)) (h : Heap) : List Ref → Except Err (List Ref × Heap)
  | [] => .ok ([], h)
  | r :: rs => do
    let (r', h1) ← f h r
    let (rs', h2) ← copyAll f h1 rs
    return (r' :: rs', h2)

/-! ### Constructors -/

/-- `states.py:27-34` (`VectorState.__init__`): `np.array(value, dtype=np.float64).ravel()` makes a new array. -/
def newVec (h : Heap) (value : Ref) (stamp : Option ℝ) (id : Id) : Except Err (Ref × Heap) := do
  let a ← readArr h value
  let (v, h1) := alloc h (.arr (.vec a.ravel))
  return alloc h1 (.vec v a.ravel.length stamp id)

/-- `states.py:97-119` (`MatrixLieGroupState.__init__` with an array) and the constructors of the subclasses
(e.g. `states.py:327-334`), which forward to it: exponential coordinates are mapped by `Exp` into a new array, a
square matrix is stored as it is. -/
def newLie (Exp : LieCls → Arr → Arr) (c : LieCls) (h : Heap) (value : Ref) (stamp : Option ℝ) (id : Id)
    (dir : String) : Except Err (Ref × Heap) := do
  let a ← readArr h value
  if a.size = c.dof then
    let (v, h1) := alloc h (.arr (Exp c a))
    return alloc h1 (.lie c v stamp id dir)
  else
    match a with
    | .vec _ => .error .indexError
    | .mat r k _ => if r = k then return alloc h (.lie c value stamp id dir) else .error .valueError

/-- `composite.py:24-48` (`CompositeState.__init__` with a list): the list itself is stored. -/
def newComp (h : Heap) (l : Ref) (stamp : Option ℝ) (id : Id) : Ref × Heap := alloc h (.comp l stamp id)

/-- `imu.py:146-180` (`IMUState.__init__`). -/
def newImuState (Exp : LieCls → Arr → Arr) (h : Heap) (nav bg ba : Ref) (stamp : Option ℝ) (id : Id)
    (dir : String) : Except Err (Ref × Heap) := do
  let (x, h1) ← newLie Exp .SE23 h nav stamp (some "pose") dir
  let (g, h2) ← newVec h1 bg stamp (some "gyro_bias")
  let (a, h3) ← newVec h2 ba stamp (some "accel_bias")
  let (l, h4) := alloc h3 (.list [x, g, a])
  return alloc h4 (.imuState l stamp id)

/-! ### Attributes of states -/

/-- `x.stamp` of a state. -/
def stampOf (h : Heap) (r : Ref) : Except Err (Option ℝ) :=
  match h[r]? with
  | some (.vec _ _ s _) => .ok s
  | some (.lie _ _ s _ _) => .ok s
  | some (.comp _ s _) => .ok s
  | some (.imuState _ s _) => .ok s
  | _ => .error .attributeError

/-- `x.stamp = t` on a state. For composite states this writes the composite's own stamp only. -/
def setStamp (h : Heap) (r : Ref) (t : Option ℝ) : Except Err Heap :=
  match h[r]? with
  | some (.vec v d _ i) => .ok (h.set r (.vec v d t i))
  | some (.lie c v _ i d) => .ok (h.set r (.lie c v t i d))
  | some (.comp v _ i) => .ok (h.set r (.comp v t i))
  | some (.imuState v _ i) => .ok (h.set r (.imuState v t i))
  | _ => .error .attributeError

/-- `x.value` of an elementary state or of a composite (then the list of sub-states). -/
def valueOf (h : Heap) (r : Ref) : Except Err Ref :=
  match h[r]? with
  | some (.vec v _ _ _) => .ok v
  | some (.lie _ v _ _ _) => .ok v
  | some (.comp v _ _) => .ok v
  | some (.imuState v _ _) => .ok v
  | _ => .error .attributeError

/-- `x.value = v`: rebinds the attribute. -/
def setValue (h : Heap) (r : Ref) (v : Ref) : Except Err Heap :=
  match h[r]? with
  | some (.vec _ d s i) => .ok (h.set r (.vec v d s i))
  | some (.lie c _ s i d) => .ok (h.set r (.lie c v s i d))
  | some (.comp _ s i) => .ok (h.set r (.comp v s i))
  | some (.imuState _ s i) => .ok (h.set r (.imuState v s i))
  | _ => .error .attributeError

/-- `x.direction` of a matrix Lie group state. -/
def dirOf (h : Heap) (r : Ref) : Except Err String :=
  match h[r]? with
  | some (.lie _ _ _ _ d) => .ok d
  | _ => .error .attributeError

/-- `value[i]` of a Python list. -/
def elemOf (l : List Ref) (i : ℕ) : Except Err Ref :=
  match l[i]? with
  | some r => .ok r
  | none => .error .indexError

/-- `imu.py:256-269` (`IMUState.copy`): `self.nav_state` is `self.value[0].value` (236-238), `self.bias_gyro` is
`self.value[1].value` (220-222), `self.bias_accel` is `self.value[2].value` (228-230) and `self.direction` is
`self.value[0].direction` (248-250). -/
def copyImuState (Exp : LieCls → Arr → Arr) (h : Heap) (elems : List Ref) (stamp : Option ℝ) (id : Id) :
    Except Err (Ref × Heap) := do
  let x0 ← elemOf elems 0
  let v0 ← valueOf h x0
  let (nav, h1) ← copyArr h v0
  let x1 ← elemOf elems 1
  let v1 ← valueOf h1 x1
  let (bg, h2) ← copyArr h1 v1
  let x2 ← elemOf elems 2
  let v2 ← valueOf h2 x2
  let (ba, h3) ← copyArr h2 v2
  let d ← dirOf h3 x0
  newImuState Exp h3 nav bg ba stamp id d

/-- `copy()` of the state classes: `VectorState` (`states.py:54-55`), `MatrixLieGroupState` and subclasses
(`states.py:135-152`), `CompositeState` (`composite.py:246-253`), `IMUState` (`imu.py:256-269`). The first argument
bounds the nesting of composite states (the interpreter's recursion limit; a composite state that contains itself
cannot be copied). -/
def copyState (Exp : LieCls → Arr → Arr) : ℕ → Heap → Ref → Except Err (Ref × Heap)
  | 0, _, _ => .error .diverges
  | k + 1, h, r =>
    match h[r]? with
    | some (.vec v _ s i) => do
      let (v', h1) ← copyArr h v
      newVec h1 v' s i
    | some (.lie c v s i d) => do
      let (v', h1) ← copyArr h v
      newLie Exp c h1 v' s i d
    | some (.comp v s i) => do
      let l ← readList h v
      let (l', h1) ← copyAll (copyState Exp k) h l
      let (v', h2) := alloc h1 (.list l')
      return newComp h2 v' s i
    | some (.imuState v s i) => do
      let l ← readList h v
      copyImuState Exp h l s i
    | _ => .error .attributeError

/-! ### What an observer sees: states as trees -/

/-- The contents of a state: everything that can be read through its attributes, without the identity of the
objects. -/
inductive STree where
  | vec (data : List ℝ) (stamp : Option ℝ) (id : Id)
  | lie (cls : LieCls) (n : ℕ) (value : Mat n n) (stamp : Option ℝ) (id : Id) (dir : String)
  | comp (subs : List STree) (stamp : Option ℝ) (id : Id)
  | imu (nav gyro accel : STree) (stamp : Option ℝ) (id : Id)

/-- The stamp of a state. -/
def STree.stamp : STree → Option ℝ
  | .vec _ s _ => s
  | .lie _ _ _ s _ _ => s
  | .comp _ s _ => s
  | .imu _ _ _ s _ => s

/-- The contents after `x.stamp = t`. -/
def STree.setStamp (t : Option ℝ) : STree → STree
  | .vec d _ i => .vec d t i
  | .lie c n m _ i d => .lie c n m t i d
  | .comp l _ i => .comp l t i
  | .imu a b c _ i => .imu a b c t i

/-- A one-dimensional array with `d` entries. -/
def asVec (d : ℕ) : Arr → Option (List ℝ)
  | .vec l => if l.length = d then some l else none
  | .mat _ _ _ => none

/-- A square matrix that the constructor of class `c` accepts as a direct group element. -/
def asSquare (c : LieCls) : Arr → Option (Σ n, Mat n n)
  | .vec _ => none
  | .mat r k M =>
    if h : r = k then if r * k = c.dof then none else some ⟨r, M.submatrix id (Fin.cast h)⟩ else none

/-- The array stored under a reference. -/
def arrAt (h : Heap) (r : Ref) : Option Arr :=
  match h[r]? with
  | some (.arr a) => some a
  | _ => none

/-- The list stored under a reference. -/
def listAt (h : Heap) (r : Ref) : Option (List Ref) :=
  match h[r]? with
  | some (.list l) => some l
  | _ => none

/-- The three sub-states of an `IMUState` as its constructor makes them: an `SE23State` and two `VectorState`s. -/
def asImu (s : Option ℝ) (i : Id) : List STree → Option STree
  | [.lie .SE23 n M s0 i0 d, .vec g s1 i1, .vec a s2 i2] =>
    some (.imu (.lie .SE23 n M s0 i0 d) (.vec g s1 i1) (.vec a s2 i2) s i)
  | _ => none

/-- The contents of the state under a reference, `none` if there is no (well-formed) state there. -/
def contents : ℕ → Heap → Ref → Option STree
  | 0, _, _ => none
  | k + 1, h, r =>
    match h[r]? with
    | some (.vec v d s i) => do
      let a ← arrAt h v
      let l ← asVec d a
      return .vec l s i
    | some (.lie c v s i d) => do
      let a ← arrAt h v
      let M ← asSquare c a
      return .lie c M.1 M.2 s i d
    | some (.comp v s i) => do
      let l ← listAt h v
      let ts ← l.mapM (contents k h)
      return .comp ts s i
    | some (.imuState v s i) => do
      let l ← listAt h v
      let ts ← l.mapM (contents k h)
      asImu s i ts
    | _ => none

mutual
/-- The contents of a copy: the same, except that copying an `IMUState` rebuilds its three sub-states with the
stamp of the whole and the default identifiers (`imu.py:172-174`). -/
def copied : STree → STree
  | .vec d s i => .vec d s i
  | .lie c n m s i d => .lie c n m s i d
  | .comp l s i => .comp (copiedAll l) s i
  | .imu nav g a s i => .imu (rebuilt "pose" s nav) (rebuilt "gyro_bias" s g) (rebuilt "accel_bias" s a) s i

/-- `copied` for a list. -/
def copiedAll : List STree → List STree
  | [] => []
  | t :: ts => copied t :: copiedAll ts

/-- A sub-state of an `IMUState`, rebuilt. -/
def rebuilt (name : String) (s : Option ℝ) : STree → STree
  | .vec d _ _ => .vec d s (some name)
  | .lie c n m _ _ d => .lie c n m s (some name) d
  | t => t
end

/-! ### Degrees of freedom, estimates and mixtures -/

/-- `state.dof`: stored for vector states (`types.py:85`), `group.dof` for Lie group states, the sum over the
sub-states for composites (`composite.py:74-76`). -/
def dofOf : ℕ → Heap → Ref → Except Err ℕ
  | 0, _, _ => .error .diverges
  | k + 1, h, r =>
    match h[r]? with
    | some (.vec _ d _ _) => .ok d
    | some (.lie c _ _ _ _) => .ok c.dof
    | some (.comp v _ _) => do
      let l ← readList h v
      let ds ← l.mapM (dofOf k h)
      return ds.sum
    | some (.imuState v _ _) => do
      let l ← readList h v
      let ds ← l.mapM (dofOf k h)
      return ds.sum
    | _ => .error .attributeError

mutual
/-- `state.dof` in terms of the contents. -/
def STree.dof : STree → ℕ
  | .vec l _ _ => l.length
  | .lie c _ _ _ _ _ => c.dof
  | .comp l _ _ => STree.dofs l
  | .imu n g a _ _ => n.dof + (g.dof + (a.dof + 0))

/-- Total of a list. -/
def STree.dofs : List STree → ℕ
  | [] => 0
  | t :: ts => t.dof + STree.dofs ts
end

/-! ### `plus` -/

/-- The group operation behind `MatrixLieGroupState.plus` (`states.py:117-124`): `value @ Exp(dx)` or
`Exp(dx) @ value` according to the direction, `ValueError` for another direction. A parameter here (its definition is
`Verif.liePlus`). -/
abbrev LiePlus := LieCls → String → (n : ℕ) → Mat n n → List ℝ → Except Err (Mat n n)

/-- `x.value` of a Lie group state as a matrix. -/
def readSquare (h : Heap) (r : Ref) : Except Err (Σ n, Mat n n) := do
  match ← readArr h r with
  | .vec _ => .error .valueError
  | .mat n m M => if e : n = m then .ok ⟨n, M.submatrix id (Fin.cast e)⟩ else .error .valueError

/-- `new.value[i] = state.plus(dx[: state.dof]); dx = dx[state.dof :]` for the sub-states in order
(`composite.py:261-263`). -/
def plusAll (k : ℕ) (f : Heap → Ref → List ℝ → Except Err (Ref × Heap)) (h : Heap) :
    List Ref → List ℝ → Except Err (List Ref × Heap)
  | [], _ => .ok ([], h)
  | r :: rs, dx => do
    let d ← dofOf k h r
    let (r', h1) ← f h r (dx.take d)
    let (rs', h2) ← plusAll k f h1 rs (dx.drop d)
    return (r' :: rs', h2)

/-- `plus(dx)` of the state classes: `VectorState` (`states.py:36-42`), `MatrixLieGroupState` (`states.py:117-124`),
`CompositeState` and `IMUState` (`composite.py:255-268`, without `new_stamp`). Simplification: the composite's new
list is allocated with its final elements; the code overwrites the elements of the list that `copy` has just made,
which nobody else holds. -/
def plusState (Exp : LieCls → Arr → Arr) (P : LiePlus) : ℕ → Heap → Ref → List ℝ → Except Err (Ref × Heap)
  | 0, _, _, _ => .error .diverges
  | k + 1, h, r, dx => do
    let (n, h1) ← copyState Exp (k + 1) h r
    match h1[r]? with
    | some (.vec _ d _ _) =>
      if dx.length = d then do
        let v ← valueOf h1 n
        let a ← readArr h1 v
        let (v', h2) := alloc h1 (.arr (.vec (List.zipWith (· + ·) a.ravel dx)))
        let h3 ← setValue h2 n v'
        return (n, h3)
      else .error .valueError
    | some (.lie c v _ _ dir) => do
      let M ← readSquare h1 v
      let M' ← P c dir M.1 M.2 dx
      let (v', h2) := alloc h1 (.arr (.mat M.1 M.1 M'))
      let h3 ← setValue h2 n v'
      return (n, h3)
    | _ => do
      let v ← valueOf h1 n
      let l ← readList h1 v
      let (l', h2) ← plusAll k (plusState Exp P k) h1 l dx
      let (v', h3) := alloc h2 (.list l')
      let h4 ← setValue h3 n v'
      return (n, h4)

/-- The contents after `plus` on an elementary state. -/
def plusLeaf (P : LiePlus) (dx : List ℝ) : STree → Except Err STree
  | .vec l s i => if dx.length = l.length then .ok (.vec (List.zipWith (· + ·) l dx) s i) else .error .valueError
  | .lie c n M s i d => do
    let M' ← P c d n M dx
    return .lie c n M' s i d
  | _ => .error .typeError

mutual
/-- The contents after `plus`. -/
def plusTree (P : LiePlus) : STree → List ℝ → Except Err STree
  | .vec l s i, dx => plusLeaf P dx (.vec l s i)
  | .lie c n M s i d, dx => plusLeaf P dx (.lie c n M s i d)
  | .comp l s i, dx => do
    let l' ← plusTrees P l dx
    return .comp l' s i
  | .imu n g a s i, dx => do
    let n' ← plusLeaf P (dx.take n.dof) (rebuilt "pose" s n)
    let g' ← plusLeaf P ((dx.drop n.dof).take g.dof) (rebuilt "gyro_bias" s g)
    let a' ← plusLeaf P (((dx.drop n.dof).drop g.dof).take a.dof) (rebuilt "accel_bias" s a)
    return .imu n' g' a' s i

/-- For the sub-states in order. -/
def plusTrees (P : LiePlus) : List STree → List ℝ → Except Err (List STree)
  | [], _ => .ok []
  | t :: ts, dx => do
    let t' ← plusTree P t (dx.take t.dof)
    let ts' ← plusTrees P ts (dx.drop t.dof)
    return t' :: ts'
end

/-- `types.py:520-550` (`StateWithCovariance.__init__`): both objects are stored as they are, after comparing
shapes. -/
def newSwc (k : ℕ) (h : Heap) (state cov : Ref) : Except Err (Ref × Heap) := do
  let a ← readArr h cov
  match a with
  | .vec _ => .error .indexError
  | .mat r c _ =>
    if r ≠ c then .error .valueError
    else do
      let d ← dofOf k h state
      if r ≠ d then .error .valueError else return alloc h (.swc state cov)

/-- The attributes of a `StateWithCovariance`. -/
def readSwc (h : Heap) (r : Ref) : Except Err (Ref × Ref) :=
  match h[r]? with
  | some (.swc s c) => .ok (s, c)
  | _ => .error .attributeError

/-- `types.py:566-567` (`StateWithCovariance.copy`). -/
def copySwc (Exp : LieCls → Arr → Arr) (k : ℕ) (h : Heap) (r : Ref) : Except Err (Ref × Heap) := do
  let (s, c) ← readSwc h r
  let (s', h1) ← copyState Exp k h s
  let (c', h2) ← copyArr h1 c
  newSwc k h2 s' c'

/-- `states.py:671-673` (`MixtureState.copy`), the probabilities being a numpy array. -/
def copyMix (Exp : LieCls → Arr → Arr) (k : ℕ) (h : Heap) (r : Ref) : Except Err (Ref × Heap) :=
  match h[r]? with
  | some (.mix l p) => do
    let xs ← readList h l
    let (xs', h1) ← copyAll (copySwc Exp k) h xs
    let (l', h2) := alloc h1 (.list xs')
    let (p', h3) ← copyArr h2 p
    return alloc h3 (.mix l' p')
  | _ => .error .attributeError

/-- The contents of a `StateWithCovariance`: the state and a square matrix of its number of degrees of freedom. -/
def contentsSwc (k : ℕ) (h : Heap) (r : Ref) : Option (STree × Σ n, Mat n n) :=
  match h[r]? with
  | some (.swc s c) => do
    let t ← contents k h s
    let a ← arrAt h c
    match a with
    | .vec _ => none
    | .mat n m M =>
      if e : n = m then if n = t.dof then some (t, ⟨n, M.submatrix id (Fin.cast e)⟩) else none else none
  | _ => none

/-- The contents of a `MixtureState`. -/
def contentsMix (k : ℕ) (h : Heap) (r : Ref) : Option (List (STree × Σ n, Mat n n) × Arr) :=
  match h[r]? with
  | some (.mix l p) => do
    let xs ← listAt h l
    let ts ← xs.mapM (contentsSwc k h)
    let a ← arrAt h p
    return (ts, a)
  | _ => none

/-! ### Inputs -/

/-- `states.py:683-716` (`VectorInput.__init__` with an array): value and covariance are stored as they are. -/
def newVinput (h : Heap) (value : Ref) (stamp : Option ℝ) (id : Id) (cov : Option Ref) : Ref × Heap :=
  alloc h (.vinput value stamp id cov)

/-- `np.array(a).ravel()`: a new one-dimensional array. -/
def ravelArr (h : Heap) (r : Ref) : Except Err (Ref × Heap) := do
  let a ← readArr h r
  return alloc h (.arr (.vec a.ravel))

/-- `imu.py:24-69` (`IMU.__init__` with arrays): the four arrays are copied, the covariance is stored as it is. -/
def newImu (h : Heap) (g a wg wa : Ref) (stamp : Option ℝ) (id : Id) (cov : Option Ref) :
    Except Err (Ref × Heap) := do
  let (g', h1) ← ravelArr h g
  let (a', h2) ← ravelArr h1 a
  let (wg', h3) ← ravelArr h2 wg
  let (wa', h4) ← ravelArr h3 wa
  return alloc h4 (.imu g' a' wg' wa' stamp id cov)

/-- `imu.py:93-96`: `None` or `self.covariance.copy()`. -/
def copyCov (h : Heap) : Option Ref → Except Err (Option Ref × Heap)
  | none => .ok (none, h)
  | some c => do
    let (c', h1) ← copyArr h c
    return (some c', h1)

/-- `copy()` of the input classes: `VectorInput` (`states.py:734-740`: the covariance is NOT copied), `IMU`
(`imu.py:92-106`), `CompositeInput` (`composite.py:432-433`). -/
def copyInput : ℕ → Heap → Ref → Except Err (Ref × Heap)
  | 0, _, _ => .error .diverges
  | k + 1, h, r =>
    match h[r]? with
    | some (.vinput v s i c) => do
      let (v', h1) ← copyArr h v
      return newVinput h1 v' s i c
    | some (.imu g a wg wa s i c) => do
      let (c', h0) ← copyCov h c
      let (g', h1) ← copyArr h0 g
      let (a', h2) ← copyArr h1 a
      let (wg', h3) ← copyArr h2 wg
      let (wa', h4) ← copyArr h3 wa
      newImu h4 g' a' wg' wa' s i c'
    | some (.cinput l) => do
      let xs ← readList h l
      let (xs', h1) ← copyAll (copyInput k) h xs
      let (l', h2) := alloc h1 (.list xs')
      return alloc h2 (.cinput l')
    | _ => .error .attributeError

/-- The contents of an input. -/
inductive ITree where
  | vec (value : Arr) (stamp : Option ℝ) (id : Id) (cov : Option Arr)
  | imu (gyro accel walkGyro walkAccel : List ℝ) (stamp : Option ℝ) (id : Id) (cov : Option Arr)
  | comp (inputs : List ITree)

/-- An optional array attribute. -/
def covAt (h : Heap) : Option Ref → Option (Option Arr)
  | none => some none
  | some c => (arrAt h c).map some

/-- A one-dimensional array of any length. -/
def vecAt (h : Heap) (r : Ref) : Option (List ℝ) := do
  match ← arrAt h r with
  | .vec l => some l
  | .mat _ _ _ => none

/-- The contents of the input under a reference. -/
def contentsInput : ℕ → Heap → Ref → Option ITree
  | 0, _, _ => none
  | k + 1, h, r =>
    match h[r]? with
    | some (.vinput v s i c) => do
      let a ← arrAt h v
      let C ← covAt h c
      return .vec a s i C
    | some (.imu g a wg wa s i c) => do
      let g ← vecAt h g
      let a ← vecAt h a
      let wg ← vecAt h wg
      let wa ← vecAt h wa
      let C ← covAt h c
      return .imu g a wg wa s i C
    | some (.cinput l) => do
      let xs ← listAt h l
      let ts ← xs.mapM (contentsInput k h)
      return .comp ts
    | _ => none

/-! ### Programs of a client -/

/-- One step of a program that manipulates objects through references it holds: read an attribute, overwrite an
object (any attribute or array entry, with any references it holds), create an object. Straight-line sequences are
enough: every run of a branching program is one. -/
inductive Cmd where
  | load (var attr : ℕ)
  | store (var : ℕ) (o : Obj)
  | new (o : Obj)

/-- The effect of a step on the heap and on the references held; a step that is not possible does nothing. -/
def Cmd.step (c : Cmd) (h : Heap) (vars : List Ref) : Heap × List Ref :=
  match c with
  | .load v a =>
    match vars[v]? with
    | none => (h, vars)
    | some r =>
      match h[r]? with
      | none => (h, vars)
      | some o =>
        match o.refs[a]? with
        | none => (h, vars)
        | some q => (h, vars ++ [q])
  | .store v o =>
    match vars[v]? with
    | none => (h, vars)
    | some r => if ∀ q ∈ o.refs, q ∈ vars then (h.set r o, vars) else (h, vars)
  | .new o => if ∀ q ∈ o.refs, q ∈ vars then (h ++ [o], vars ++ [h.length]) else (h, vars)

/-- Running a program. -/
def runCmds : List Cmd → Heap → List Ref → Heap × List Ref
  | [], h, vars => (h, vars)
  | c :: cs, h, vars => runCmds cs (c.step h vars).1 (c.step h vars).2

/-- Every reference in the heap points into the heap. -/
def WF (h : Heap) : Prop := ∀ o ∈ h, ∀ q ∈ o.refs, q < h.length

end Verif.Heap
